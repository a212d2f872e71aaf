import Verif.Proof.Scan.BlockShift
import Verif.Spec.Further

/-! # Scalars further on in a text

What plain and block scalars are does not depend on where in a text they stand: further on they are the same, and end as much further on. -/

namespace Yary

/-- A token further on. -/
def MaybeToken.mv (w l : Nat) : MaybeToken → MaybeToken
  | .Token t => .Token t
  | .Deferred d => .Deferred (d.mv w l)

end Yary

namespace Yary.Moved

open Yary.Shift (Alike Heads)

variable {opts : SFlags} {w l : Nat}

/-- The same text, further on. -/
def Mv (w l : Nat) (c c' : Cur) : Prop := c'.buf = c.buf ∧ c'.stats = c.stats.mv w l

theorem adv_mv {c c' : Cur} (h : Mv w l c c') (k : Nat) : Alike (Mv w l) (c.adv k) (c'.adv k) := by
  unfold Cur.adv
  rw [h.1]
  split
  · refine ⟨rfl, ?_⟩
    rw [h.2]
    simp only [MStats.update, MStats.mv, MStats.mk.injEq]
    refine ⟨by omega, by omega, trivial⟩
  · trivial

theorem line_mv {c c' : Cur} (h : Mv w l c c') : Alike (Mv w l) c.line c'.line := by
  unfold Cur.line
  rw [h.1]
  split
  · refine ⟨rfl, ?_⟩
    rw [h.2]
    simp only [MStats.update, MStats.mv, MStats.mk.injEq]
    refine ⟨by omega, by omega, trivial⟩
  · trivial

theorem column_mv {c c' : Cur} (h : Mv w l c c') : c'.stats.column = c.stats.column := by rw [h.2]; rfl

theorem skipBlanks_loop : ∀ fuel {c c' : Cur}, Mv w l c c' → Alike (Mv w l) (skipBlanksLoop opts fuel c) (skipBlanksLoop opts fuel c')
  | 0, _, _, _ => trivial
  | fuel + 1, c, c', h => by
    rw [skipBlanksLoop, skipBlanksLoop, h.1]
    split
    · exact .same fun _ => (adv_mv h 1).bind fun _ _ h => skipBlanks_loop fuel h
    · exact h

theorem toBreak_mv : ∀ fuel {c c' : Cur}, Mv w l c c' → Alike (Mv w l) (toBreak opts fuel c) (toBreak opts fuel c')
  | 0, _, _, _ => trivial
  | fuel + 1, c, c', h => by
    rw [toBreak, toBreak, h.1]
    split
    · exact h
    · exact .same fun _ => (adv_mv h 1).bind fun _ _ h => toBreak_mv fuel h

theorem skipBlanks_mv {c c' : Cur} (h : Mv w l c c') : Alike (Mv w l) (skipBlanks opts c) (skipBlanks opts c') := by
  unfold skipBlanks
  rw [h.1]
  refine .same fun _ => (skipBlanks_loop _ h).bind fun a a' h => ?_
  rw [h.1]
  split
  · exact toBreak_mv _ h
  · exact h

theorem scanHeaders_mv {c c' : Cur} (h : Mv w l c c') : Alike (Heads (Mv w l)) (scanHeaders opts c) (scanHeaders opts c') := by
  unfold scanHeaders
  rw [h.1]
  exact .same fun _ => (adv_mv h _).bind fun _ _ h => ⟨rfl, rfl, h⟩

theorem blockHeader_mv {c c' : Cur} (h : Mv w l c c') : Alike (Heads (Mv w l)) (blockHeader opts c) (blockHeader opts c') := by
  unfold blockHeader
  rw [h.1]
  refine .same fun _ => (adv_mv h 1).bind fun _ _ h => (scanHeaders_mv h).bind fun ⟨ch, ex, c1⟩ ⟨ch', ex', c1'⟩ h => ?_
  obtain ⟨h1, h2, h⟩ := h
  dsimp only at h1 h2 h
  subst h1 h2
  refine (skipBlanks_mv h).bind fun c2 c2' h => ?_
  rw [h.1]
  refine .same fun _ => ?_
  split
  · rfl
  · exact (line_mv h).bind fun _ _ h => ⟨rfl, rfl, h⟩

/-- The same indentation. -/
def Found (w l : Nat) (d d' : DetectSt) : Prop := Mv w l d.cur d'.cur ∧ d'.indent = d.indent ∧ d'.lines = d.lines ∧ d'.canBorrow = d.canBorrow

theorem detectBlanks_mv : ∀ fuel {d d' : DetectSt}, Found w l d d' → Alike (Found w l) (detectBlanks opts fuel d) (detectBlanks opts fuel d')
  | 0, _, _, _ => trivial
  | fuel + 1, d, d', h => by
    rw [detectBlanks, detectBlanks, h.1.1]
    split
    · refine .same fun _ => ?_
      split
      · rfl
      · refine (adv_mv h.1 1).bind fun _ _ h' => detectBlanks_mv fuel ⟨h', h.2.1, h.2.2.1, ?_⟩
        dsimp only
        rw [h.2.2.1, h.2.2.2]
    · exact h

theorem detectLoop_mv : ∀ fuel {d d' : DetectSt}, Found w l d d' → Alike (Found w l) (detectLoop opts fuel d) (detectLoop opts fuel d')
  | 0, _, _, _ => trivial
  | fuel + 1, d, d', h => by
    rw [detectLoop, detectLoop, h.1.1]
    refine .same fun _ => (detectBlanks_mv _ h).bind fun e e' h => ?_
    dsimp only
    rw [h.1.1]
    refine .same fun _ => ?_
    split
    · refine (line_mv h.1).bind fun _ _ h' => detectLoop_mv fuel ⟨h', ?_, by dsimp only; rw [h.2.2.1], h.2.2.2⟩
      dsimp only
      rw [column_mv h.1, h.2.1]
    · refine ⟨h.1, ?_, h.2.2.1, h.2.2.2⟩
      dsimp only
      rw [column_mv h.1, h.2.1]

theorem blockIndent_mv {x : Option Nat} {base : Nat} {c c' : Cur} (h : Mv w l c c') :
    Alike (Found w l) (blockIndent opts x base c) (blockIndent opts x base c') := by
  unfold blockIndent
  cases x with
  | some n => exact ⟨h, rfl, rfl, rfl⟩
  | none =>
    unfold detectIndent
    dsimp only
    rw [h.1]
    have h0 : Found w l { cur := c } { cur := c' } := ⟨h, rfl, rfl, rfl⟩
    refine Alike.bind (R := Found w l) (detectLoop_mv _ h0) fun d d' h => ?_
    refine ⟨h.1, ?_, h.2.2.1, h.2.2.2⟩
    dsimp only
    rw [h.2.1]

/-- The same lines. -/
def Counts (w l : Nat) (x x' : Cur × Nat) : Prop := Mv w l x.1 x'.1 ∧ x'.2 = x.2

theorem eatBreak_mv {c c' : Cur} {n : Nat} (h : Mv w l c c') : Alike (Counts w l) (eatBreak opts c n) (eatBreak opts c' n) := by
  unfold eatBreak
  rw [h.1]
  refine .same fun _ => ?_
  split
  · exact (line_mv h).bind fun _ _ h => ⟨h, rfl⟩
  · exact ⟨h, rfl⟩

theorem scanIndentLoop_mv {i : Nat} : ∀ fuel {c c' : Cur} (n : Nat), Mv w l c c' →
    Alike (Counts w l) (scanIndentLoop opts i fuel c n) (scanIndentLoop opts i fuel c' n)
  | 0, _, _, _, _ => trivial
  | fuel + 1, c, c', n, h => by
    rw [scanIndentLoop, scanIndentLoop, h.1, column_mv h]
    split
    · split
      · refine (adv_mv h 1).bind fun _ _ h => ?_
        rw [h.1]
        exact .same fun _ => scanIndentLoop_mv fuel n h
      · split
        · rfl
        · refine (line_mv h).bind fun _ _ h => ?_
          rw [h.1]
          exact .same fun _ => scanIndentLoop_mv fuel _ h
    · exact ⟨h, rfl⟩

theorem scanIndent_mv {i n : Nat} {c c' : Cur} (h : Mv w l c c') : Alike (Counts w l) (scanIndent opts i c n) (scanIndent opts i c' n) := by
  unfold scanIndent
  rw [h.1, column_mv h]
  split
  · exact ⟨h, rfl⟩
  · exact .same fun _ => scanIndentLoop_mv _ n h

/-- The same contents. -/
def Reads (w l : Nat) (st st' : BlockSt) : Prop :=
  Mv w l st.cur st'.cur ∧ st'.scratch = st.scratch ∧ st'.canBorrow = st.canBorrow ∧ st'.start = st.start ∧ st'.stop = st.stop ∧ st'.lines = st.lines

theorem minus_mv {c c' : Cur} {r : Nat} (h : Mv w l c c') : Alike Eq (minus c.stats.read r) (minus c'.stats.read (r + w)) := by
  rw [h.2]
  unfold minus MStats.mv
  by_cases h1 : r ≤ c.stats.read
  · rw [if_pos h1, if_pos (by dsimp only; omega)]
    show _ = _
    dsimp only
    omega
  · rw [if_neg h1, if_neg (by dsimp only; omega)]
    trivial

theorem trapdoor_mv {b : Str} {st st' : BlockSt} (h : Reads w l st st') : Alike (Reads w l) (st.trapdoor b) (st'.trapdoor b) := by
  obtain ⟨h1, h2, h3, h4, h5, h6⟩ := h
  unfold BlockSt.trapdoor
  rw [h3, h4, h5, h6, h2]
  split
  · exact .same fun _ => ⟨h1, rfl, rfl, rfl, rfl, rfl⟩
  · exact ⟨h1, h2, h3, h4, h5, h6⟩

theorem contentStart_mv {r : Nat} {st st' : BlockSt} (h : Reads w l st st') : Alike Eq (st.contentStart r) (st'.contentStart (r + w)) := by
  obtain ⟨h1, h2, h3, h4, h5, h6⟩ := h
  unfold BlockSt.contentStart
  rw [h3, h4]
  split
  · split
    · exact minus_mv h1
    · exact rfl
  · exact rfl

theorem contentEnd_mv {r : Nat} {b : Bool} {s : Str} {c c' : Cur} (h : Mv w l c c') : Alike Eq (contentEnd b r c s) (contentEnd b (r + w) c' s) := by
  unfold contentEnd
  split
  · exact minus_mv h
  · exact rfl

theorem blockLines_mv {r : Nat} {b : Str} {fold : Bool} {i : Nat} : ∀ fuel {st st' : BlockSt}, Reads w l st st' →
    Alike (Reads w l) (blockLines opts b r fold i fuel st) (blockLines opts b (r + w) fold i fuel st')
  | 0, _, _, _ => trivial
  | fuel + 1, st, st', h => by
    rw [blockLines, blockLines, h.1.1, column_mv h.1]
    split
    · refine (trapdoor_mv h).bind fun u u' h => (contentStart_mv h).bind fun x x' hx => ?_
      obtain ⟨h1, h2, h3, h4, h5, h6⟩ := h
      subst hx
      rw [h1.1]
      refine .same fun _ => (toBreak_mv _ h1).bind fun c c' hc => ?_
      dsimp only
      rw [h3, h2, h6, hc.1]
      refine (contentEnd_mv hc).bind fun y y' hy => ?_
      subst hy
      refine (eatBreak_mv hc).bind fun ⟨c1, n1⟩ ⟨c1', n1'⟩ h => ?_
      obtain ⟨hc, rfl⟩ := h
      refine (scanIndent_mv hc).bind fun ⟨c2, n2⟩ ⟨c2', n2'⟩ h => ?_
      obtain ⟨hc, rfl⟩ := h
      exact blockLines_mv fuel ⟨hc, rfl, rfl, rfl, rfl, rfl⟩
    · exact h

theorem blockBegin_mv {r : Nat} {d d' : DetectSt} (h : Found w l d d') : Alike (Reads w l) (blockBegin r d) (blockBegin (r + w) d') := by
  obtain ⟨h1, -, h3, h4⟩ := h
  unfold blockBegin
  rw [h4]
  split
  · exact (minus_mv h1).bind fun _ _ h => ⟨h1, rfl, rfl, h.symm, rfl, rfl⟩
  · exact ⟨h1, by dsimp only; rw [h3], rfl, rfl, rfl, rfl⟩

theorem scanChomp_mv {b : Str} {ch : ChompStyle} {st st' : BlockSt} (h : Reads w l st st') : scanChomp b ch st' = scanChomp b ch st := by
  obtain ⟨h1, h2, h3, h4, h5, h6⟩ := h
  unfold scanChomp
  rw [h2, h3, h4, h5, h6]

theorem lazyLoop_mv {i : Nat} : ∀ fuel {c c' : Cur}, Mv w l c c' → Alike (Mv w l) (blockLazyLoop opts i fuel c) (blockLazyLoop opts i fuel c')
  | 0, _, _, _ => trivial
  | fuel + 1, c, c', h => by
    rw [blockLazyLoop, blockLazyLoop, h.1, column_mv h]
    split
    · refine .same fun _ => (toBreak_mv _ h).bind fun c c' h => (eatBreak_mv h).bind fun _ _ h => (scanIndent_mv h.1).bind fun _ _ h => ?_
      exact lazyLoop_mv fuel h.1
    · exact h


/-- A token and what is behind it, further on. -/
def Out' (w l : Nat) (x x' : MaybeToken × Cur) : Prop := x'.1 = x.1.mv w l ∧ Mv w l x.2 x'.2

theorem scanBlock_mv {base : Nat} {fold : Bool} {s : Str} {m : MStats} :
    Alike (Out' w l) (scanBlock opts base fold ⟨s, m⟩) (scanBlock opts base fold ⟨s, m.mv w l⟩) := by
  have h0 : Mv w l ⟨s, m⟩ ⟨s, m.mv w l⟩ := ⟨rfl, rfl⟩
  unfold scanBlock
  split
  · unfold scanBlockLazy
    simp only [bind_assoc]
    refine (blockHeader_mv h0).bind fun ⟨ch, ex, c1⟩ ⟨ch', ex', c1'⟩ h => ?_
    obtain ⟨h1, h2, h⟩ := h
    dsimp only at h1 h2 h
    subst h1 h2
    refine (blockIndent_mv h).bind fun d d' h => ?_
    rw [h.2.1]
    refine (lazyLoop_mv _ h.1).bind fun c c' h => ?_
    rw [h.1]
    exact .same fun _ => ⟨rfl, h⟩
  · unfold scanBlockEager
    simp only [bind_assoc]
    refine (blockHeader_mv h0).bind fun ⟨ch, ex, c1⟩ ⟨ch', ex', c1'⟩ h => ?_
    obtain ⟨h1, h2, h⟩ := h
    dsimp only at h1 h2 h
    subst h1 h2
    refine (blockIndent_mv h).bind fun d d' h => (blockBegin_mv h).bind fun st st' hs => ?_
    rw [h.2.1]
    refine (blockLines_mv _ hs).bind fun st st' h => ?_
    rw [scanChomp_mv h]
    exact .same fun _ => ⟨rfl, h.1⟩

/-! ### Plain scalars -/

/-- The same variables, further on. -/
def Words (w l : Nat) (st st' : PlainSt) : Prop :=
  Mv w l st.cur st'.cur ∧ st'.scalarStats = st.scalarStats.mv w l ∧ st'.scratch = st.scratch ∧ st'.canBorrow = st.canBorrow ∧
    st'.outdent = st.outdent ∧ st'.whitespace = st.whitespace ∧ st'.lines = st.lines

theorem noBorrow_mv {b : Str} {st st' : PlainSt} (h : Words w l st st') : Alike (Words w l) (st.noBorrow b) (st'.noBorrow b) := by
  obtain ⟨h1, h2, h3, h4, h5, h6, h7⟩ := h
  unfold PlainSt.noBorrow
  rw [h4, h1.1, h3]
  split
  · exact .same fun _ => ⟨h1, h2, rfl, rfl, h5, h6, h7⟩
  · exact ⟨h1, h2, h3, h4, h5, h6, h7⟩

theorem push_mv {st st' : PlainSt} (h : Words w l st st') : Alike (Words w l) st.push st'.push := by
  obtain ⟨h1, h2, h3, h4, h5, h6, h7⟩ := h
  unfold PlainSt.push
  refine (adv_mv h1 1).bind fun _ _ h => ⟨h, h2, ?_, h4, h5, h6, h7⟩
  dsimp only
  rw [h3, h4, h1.1]

theorem plainWord_mv {block : Bool} : ∀ fuel {st st' : PlainSt}, Words w l st st' → Alike (Words w l) (plainWord opts block fuel st) (plainWord opts block fuel st')
  | 0, _, _, _ => trivial
  | fuel + 1, st, st', h => by
    rw [plainWord, plainWord, h.1.1]
    split
    · exact h
    · refine .same fun _ => ?_
      split
      · exact h
      · exact (push_mv h).bind fun _ _ h => plainWord_mv fuel h

theorem plainSpace_mv {b : Str} : ∀ fuel {st st' : PlainSt}, Words w l st st' → Alike (Words w l) (plainSpace opts b fuel st) (plainSpace opts b fuel st')
  | 0, _, _, _ => trivial
  | fuel + 1, st, st', h => by
    rw [plainSpace, plainSpace, h.1.1]
    refine .same fun _ => ?_
    split
    · refine (push_mv h).bind fun _ _ h => plainSpace_mv fuel ?_
      obtain ⟨h1, h2, h3, h4, h5, h6, h7⟩ := h
      exact ⟨h1, h2, h3, h4, h5, by dsimp only; rw [h6], h7⟩
    · split
      · refine (noBorrow_mv h).bind fun _ _ h => (line_mv h.1).bind fun _ _ hc => plainSpace_mv fuel ?_
        obtain ⟨h1, h2, h3, h4, h5, h6, h7⟩ := h
        exact ⟨hc, h2, h3, h4, h5, h6, by dsimp only; rw [h7]⟩
      · exact h

theorem plainJoin_mv {st st' : PlainSt} (h : Words w l st st') : Alike (Words w l) (plainJoin st) (plainJoin st') := by
  obtain ⟨h1, h2, h3, h4, h5, h6, h7⟩ := h
  unfold plainJoin
  rw [h7, h6, h3]
  split
  · exact ⟨h1, h2, h3, h4, h5, h6, h7⟩
  · exact .same fun _ => ⟨h1, h2, rfl, h4, h5, rfl, rfl⟩
  · exact .same fun _ => ⟨h1, h2, rfl, h4, h5, rfl, rfl⟩

theorem plainLoop_mv {b : Str} {i : Nat} {block : Bool} : ∀ fuel {st st' : PlainSt}, Words w l st st' →
    Alike (Words w l) (plainLoop opts b i block fuel st) (plainLoop opts b i block fuel st')
  | 0, _, _, _ => trivial
  | fuel + 1, st, st', h => by
    obtain ⟨h1, h2, h3, h4, h5, h6, h7⟩ := id h
    rw [plainLoop, plainLoop, h1.1, column_mv h1, h5]
    refine .same fun _ => ?_
    split
    · exact h
    · split
      · exact h
      · split
        · exact h
        · split
          · exact h
          · refine Alike.bind (R := Words w l) (plainWord_mv _ ⟨h1, h2, h3, h4, rfl, rfl, rfl⟩) fun u u' h => ?_
            obtain ⟨h1, h2, h3, h4, h5, h6, h7⟩ := h
            refine Alike.bind (R := Words w l) (plainSpace_mv _ ⟨h1, h1.2, h3, h4, h5, h6, h7⟩) fun v v' h => ?_
            obtain ⟨h1, h2, h3, h4, h5, h6, h7⟩ := h
            refine Alike.bind (R := Words w l) (plainJoin_mv ⟨h1, h2, h3, h4, ?_, h6, h7⟩) fun v v' h => plainLoop_mv fuel h
            dsimp only
            rw [column_mv h1]

theorem plainSlice_mv {b : Str} {st st' : PlainSt} {k : Nat} (h : Words w l st st') : plainSlice b st' k = plainSlice b st k := by
  obtain ⟨h1, h2, h3, h4, h5, h6, h7⟩ := h
  unfold plainSlice
  rw [h3, h4, h6, h7]

theorem skip_mv {s : Str} {m : MStats} {k : Nat} : Alike (Mv w l) (Cur.skip ⟨s, m⟩ k) (Cur.skip ⟨s, m.mv w l⟩ k) := by
  unfold Cur.skip
  dsimp only
  split
  · exact ⟨rfl, rfl⟩
  · trivial

/-- The same variables of the lazy variant, further on. -/
def LazyWords (w l : Nat) (st st' : PlainLazySt) : Prop :=
  Mv w l st.cur st'.cur ∧ st'.scalarStats = st.scalarStats.mv w l ∧ st'.outdent = st.outdent

theorem plainLazyWord_mv {block : Bool} : ∀ fuel {st st' : PlainLazySt}, LazyWords w l st st' →
    Alike (fun x x' => x'.1 = x.1 ∧ LazyWords w l x.2 x'.2) (plainLazyWord opts block fuel st) (plainLazyWord opts block fuel st')
  | 0, _, _, _ => trivial
  | fuel + 1, st, st', h => by
    rw [plainLazyWord, plainLazyWord, h.1.1]
    split
    · exact ⟨rfl, h⟩
    · refine .same fun _ => ?_
      split
      · refine ⟨rfl, ⟨rfl, ?_⟩, h.1.2, h.2.2⟩
        dsimp only
        rw [h.1.2]
        simp only [MStats.update, MStats.mv, MStats.mk.injEq]
        refine ⟨by omega, by omega, trivial⟩
      · exact (adv_mv h.1 1).bind fun _ _ h' => plainLazyWord_mv fuel ⟨h', h.2⟩

theorem plainLazySpace_mv : ∀ fuel {st st' : PlainLazySt}, LazyWords w l st st' →
    Alike (LazyWords w l) (plainLazySpace opts fuel st) (plainLazySpace opts fuel st')
  | 0, _, _, _ => trivial
  | fuel + 1, st, st', h => by
    rw [plainLazySpace, plainLazySpace, h.1.1]
    refine .same fun _ => ?_
    split
    · exact (adv_mv h.1 1).bind fun _ _ h' => plainLazySpace_mv fuel ⟨h', h.2⟩
    · split
      · exact (line_mv h.1).bind fun _ _ h' => plainLazySpace_mv fuel ⟨h', h.2⟩
      · exact h

theorem plainLazyLoop_mv {b : Str} {i : Nat} {block : Bool} : ∀ fuel {st st' : PlainLazySt}, LazyWords w l st st' →
    Alike (LazyWords w l) (plainLazyLoop opts b i block fuel st) (plainLazyLoop opts b i block fuel st')
  | 0, _, _, _ => trivial
  | fuel + 1, st, st', h => by
    obtain ⟨h1, h2, h3⟩ := id h
    rw [plainLazyLoop, plainLazyLoop, h1.1, column_mv h1, h3]
    refine .same fun _ => ?_
    split
    · exact h
    · split
      · exact h
      · split
        · exact h
        · split
          · exact h
          · refine (plainLazyWord_mv _ h).bind fun ⟨b1, u⟩ ⟨b2, u'⟩ h => ?_
            obtain ⟨rfl, h⟩ := h
            dsimp only
            split
            · exact h
            · refine Alike.bind (R := LazyWords w l) (plainLazySpace_mv _ ⟨h.1, h.1.2, h.2.2⟩) fun v v' h => ?_
              refine plainLazyLoop_mv fuel ⟨h.1, h.2.1, ?_⟩
              dsimp only
              rw [column_mv h.1]

theorem minus_stats {m m0 : MStats} : Alike Eq (minus m.read m0.read) (minus (m.mv w l).read (m0.mv w l).read) :=
  minus_mv (c := ⟨[], m⟩) (c' := ⟨[], m.mv w l⟩) ⟨rfl, rfl⟩

theorem scanPlain_mv {i : Nat} {block : Bool} {s : Str} {m : MStats} :
    Alike (Out' w l) (scanPlain opts i block ⟨s, m⟩) (scanPlain opts i block ⟨s, m.mv w l⟩) := by
  have h0 : Mv w l ⟨s, m⟩ ⟨s, m.mv w l⟩ := ⟨rfl, rfl⟩
  unfold scanPlain
  split
  · unfold scanPlainLazy
    simp only [bind_assoc]
    refine Alike.bind (R := LazyWords w l) (plainLazyLoop_mv _ ⟨h0, rfl, rfl⟩) fun u u' h => ?_
    rw [h.2.1, h.1.2]
    refine minus_stats.bind fun _ _ h => ?_
    subst h
    refine minus_stats.bind fun _ _ h => ?_
    subst h
    refine .same fun _ => skip_mv.bind fun _ _ h => ⟨rfl, h⟩
  · unfold scanPlainEager
    simp only [bind_assoc]
    refine .same fun _ => ?_
    split
    · rfl
    · simp only [bind_assoc]
      refine Alike.bind (R := Words w l) (plainLoop_mv _ ⟨h0, rfl, rfl, rfl, rfl, rfl, rfl⟩) fun u u' h => ?_
      rw [h.2.1]
      refine minus_stats.bind fun _ _ hm => ?_
      subst hm
      rw [plainSlice_mv h]
      exact .same fun _ => skip_mv.bind fun _ _ h => ⟨rfl, h⟩

end Yary.Moved
