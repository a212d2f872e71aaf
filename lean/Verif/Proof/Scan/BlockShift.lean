import Verif.Model.Scan.Block
import Verif.Proof.Scan.FaultStep

/-! # Where a block scalar stands makes no difference to what is wrong with it -/

namespace Yary.Shift

variable {opts : SFlags} {α β α' β' : Type}

/-- The same error, or related results. -/
def Alike (R : α → α' → Prop) : Out ScanError α → Out ScanError α' → Prop
  | .ok a, .ok b => R a b
  | .err e, .err e' => e = e'
  | .panic, .panic => True
  | .diverge, .diverge => True
  | _, _ => False

theorem Alike.bind {R : α → α' → Prop} {S : β → β' → Prop} {x : Out ScanError α} {x' : Out ScanError α'} {f : α → Out ScanError β}
    {f' : α' → Out ScanError β'} (h : Alike R x x') (hf : ∀ a a', R a a' → Alike S (f a) (f' a')) : Alike S (x >>= f) (x' >>= f') := by
  cases x <;> cases x' <;> first | exact h.elim | exact hf _ _ h | exact h

theorem Alike.same {x : Out ScanError α} {f : α → Out ScanError β} {f' : α → Out ScanError β'} {S : β → β' → Prop}
    (hf : ∀ a, Alike S (f a) (f' a)) : Alike S (x >>= f) (x >>= f') := by
  cases x <;> first | exact hf _ | exact rfl | exact trivial

theorem Alike.refl {R : α → α → Prop} (h : ∀ a, R a a) (x : Out ScanError α) : Alike R x x := by
  cases x <;> first | exact h _ | exact rfl | exact trivial

theorem Alike.err {R : α → α' → Prop} {x : Out ScanError α} {x' : Out ScanError α'} (h : Alike R x x') {e : ScanError} (he : x = .err e) : x' = .err e := by
  subst he
  cases x' <;> first | exact h.elim | rw [h]

variable {r r' : Nat}

/-- The same text, as far from where it begins. -/
def Near (r r' : Nat) (c c' : Cur) : Prop := c'.buf = c.buf ∧ c.stats.read + r' = c'.stats.read + r

/-- And in the same column. -/
def Level (r r' : Nat) (c c' : Cur) : Prop := Near r r' c c' ∧ c'.stats.column = c.stats.column

theorem adv_near {c c' : Cur} (h : Near r r' c c') (n : Nat) : Alike (Near r r') (c.adv n) (c'.adv n) := by
  unfold Cur.adv
  rw [h.1]
  split
  · refine ⟨rfl, ?_⟩
    have := h.2
    simp only [MStats.update]
    omega
  · trivial

theorem adv_level {c c' : Cur} (h : Level r r' c c') (n : Nat) : Alike (Level r r') (c.adv n) (c'.adv n) := by
  obtain ⟨⟨h1, h2⟩, h3⟩ := h
  unfold Cur.adv
  rw [h1]
  split
  · refine ⟨⟨rfl, ?_⟩, ?_⟩ <;> simp only [MStats.update] <;> first | omega | simp [h3]
  · trivial

theorem line_near {c c' : Cur} (h : Near r r' c c') : Alike (Level r r') c.line c'.line := by
  unfold Cur.line
  rw [h.1]
  split
  · refine ⟨⟨rfl, ?_⟩, ?_⟩
    · have := h.2
      simp only [MStats.update]
      omega
    · simp [MStats.update]
  · trivial

theorem skipBlanks_loop : ∀ fuel {c c' : Cur}, Near r r' c c' → Alike (Near r r') (skipBlanksLoop opts fuel c) (skipBlanksLoop opts fuel c')
  | 0, _, _, _ => trivial
  | fuel + 1, c, c', h => by
    rw [skipBlanksLoop, skipBlanksLoop, h.1]
    split
    · exact .same fun _ => (adv_near h 1).bind fun _ _ h => skipBlanks_loop fuel h
    · exact h

theorem toBreak_near : ∀ fuel {c c' : Cur}, Near r r' c c' → Alike (Near r r') (toBreak opts fuel c) (toBreak opts fuel c')
  | 0, _, _, _ => trivial
  | fuel + 1, c, c', h => by
    rw [toBreak, toBreak, h.1]
    split
    · exact h
    · exact .same fun _ => (adv_near h 1).bind fun _ _ h => toBreak_near fuel h

theorem toBreak_level : ∀ fuel {c c' : Cur}, Level r r' c c' → Alike (Level r r') (toBreak opts fuel c) (toBreak opts fuel c')
  | 0, _, _, _ => trivial
  | fuel + 1, c, c', h => by
    rw [toBreak, toBreak, h.1.1]
    split
    · exact h
    · exact .same fun _ => (adv_level h 1).bind fun _ _ h => toBreak_level fuel h

theorem skipBlanks_near {c c' : Cur} (h : Near r r' c c') : Alike (Near r r') (skipBlanks opts c) (skipBlanks opts c') := by
  unfold skipBlanks
  rw [h.1]
  refine .same fun _ => (skipBlanks_loop _ h).bind fun a a' h => ?_
  rw [h.1]
  split
  · exact toBreak_near _ h
  · exact h

/-- The headers are the same. -/
def Heads (R : Cur → Cur → Prop) (x x' : ChompStyle × Option Nat × Cur) : Prop := x'.1 = x.1 ∧ x'.2.1 = x.2.1 ∧ R x.2.2 x'.2.2

theorem scanHeaders_near {c c' : Cur} (h : Near r r' c c') : Alike (Heads (Near r r')) (scanHeaders opts c) (scanHeaders opts c') := by
  unfold scanHeaders
  rw [h.1]
  exact .same fun _ => (adv_near h _).bind fun _ _ h => ⟨rfl, rfl, h⟩

theorem blockHeader_near {c c' : Cur} (h : Near r r' c c') : Alike (Heads (Level r r')) (blockHeader opts c) (blockHeader opts c') := by
  unfold blockHeader
  rw [h.1]
  refine .same fun _ => (adv_near h 1).bind fun _ _ h => (scanHeaders_near h).bind fun ⟨ch, ex, c1⟩ ⟨ch', ex', c1'⟩ h => ?_
  obtain ⟨h1, h2, h⟩ := h
  dsimp only at h1 h2 h
  subst h1 h2
  refine (skipBlanks_near h).bind fun c2 c2' h => ?_
  rw [h.1]
  refine .same fun _ => ?_
  split
  · rfl
  · exact (line_near h).bind fun _ _ h => ⟨rfl, rfl, h⟩

/-- The same indentation. -/
def Found (r r' : Nat) (d d' : DetectSt) : Prop := Level r r' d.cur d'.cur ∧ d'.indent = d.indent ∧ d'.lines = d.lines ∧ d'.canBorrow = d.canBorrow

theorem detectBlanks_level : ∀ fuel {d d' : DetectSt}, Found r r' d d' → Alike (Found r r') (detectBlanks opts fuel d) (detectBlanks opts fuel d')
  | 0, _, _, _ => trivial
  | fuel + 1, d, d', h => by
    rw [detectBlanks, detectBlanks, h.1.1.1]
    split
    · refine .same fun _ => ?_
      split
      · rfl
      · refine (adv_level h.1 1).bind fun _ _ h' => detectBlanks_level fuel ⟨h', h.2.1, h.2.2.1, ?_⟩
        dsimp only
        rw [h.2.2.1, h.2.2.2]
    · exact h

theorem detectLoop_level : ∀ fuel {d d' : DetectSt}, Found r r' d d' → Alike (Found r r') (detectLoop opts fuel d) (detectLoop opts fuel d')
  | 0, _, _, _ => trivial
  | fuel + 1, d, d', h => by
    rw [detectLoop, detectLoop, h.1.1.1]
    refine .same fun _ => (detectBlanks_level _ h).bind fun e e' h => ?_
    dsimp only
    rw [h.1.1.1]
    refine .same fun _ => ?_
    split
    · refine (line_near h.1.1).bind fun _ _ h' => detectLoop_level fuel ⟨h', ?_, by dsimp only; rw [h.2.2.1], h.2.2.2⟩
      dsimp only
      rw [h.1.2, h.2.1]
    · refine ⟨h.1, ?_, h.2.2.1, h.2.2.2⟩
      dsimp only
      rw [h.1.2, h.2.1]

theorem blockIndent_level {x : Option Nat} {base : Nat} {c c' : Cur} (h : Level r r' c c') :
    Alike (Found r r') (blockIndent opts x base c) (blockIndent opts x base c') := by
  unfold blockIndent
  cases x with
  | some n => exact ⟨h, rfl, rfl, rfl⟩
  | none =>
    unfold detectIndent
    dsimp only
    rw [h.1.1]
    have h0 : Found r r' { cur := c } { cur := c' } := ⟨h, rfl, rfl, rfl⟩
    refine Alike.bind (R := Found r r') (detectLoop_level _ h0) fun d d' h => ?_
    refine ⟨h.1, ?_, h.2.2.1, h.2.2.2⟩
    dsimp only
    rw [h.2.1]

/-- The same lines. -/
def Counts (r r' : Nat) (x x' : Cur × Nat) : Prop := Level r r' x.1 x'.1 ∧ x'.2 = x.2

theorem eatBreak_level {c c' : Cur} {n : Nat} (h : Level r r' c c') : Alike (Counts r r') (eatBreak opts c n) (eatBreak opts c' n) := by
  unfold eatBreak
  rw [h.1.1]
  refine .same fun _ => ?_
  split
  · exact (line_near h.1).bind fun _ _ h => ⟨h, rfl⟩
  · exact ⟨h, rfl⟩

theorem scanIndentLoop_level {i : Nat} : ∀ fuel {c c' : Cur} (n : Nat), Level r r' c c' →
    Alike (Counts r r') (scanIndentLoop opts i fuel c n) (scanIndentLoop opts i fuel c' n)
  | 0, _, _, _, _ => trivial
  | fuel + 1, c, c', n, h => by
    rw [scanIndentLoop, scanIndentLoop, h.1.1, h.2]
    split
    · split
      · refine (adv_level h 1).bind fun _ _ h => ?_
        rw [h.1.1]
        exact .same fun _ => scanIndentLoop_level fuel n h
      · split
        · rfl
        · refine (line_near h.1).bind fun _ _ h => ?_
          rw [h.1.1]
          exact .same fun _ => scanIndentLoop_level fuel _ h
    · exact ⟨h, rfl⟩

theorem scanIndent_level {i n : Nat} {c c' : Cur} (h : Level r r' c c') : Alike (Counts r r') (scanIndent opts i c n) (scanIndent opts i c' n) := by
  unfold scanIndent
  rw [h.1.1, h.2]
  split
  · exact ⟨h, rfl⟩
  · exact .same fun _ => scanIndentLoop_level _ n h

/-- The same contents. -/
def Reads (r r' : Nat) (st st' : BlockSt) : Prop :=
  Level r r' st.cur st'.cur ∧ st'.scratch = st.scratch ∧ st'.canBorrow = st.canBorrow ∧ st'.start = st.start ∧ st'.stop = st.stop ∧ st'.lines = st.lines

theorem minus_near {c c' : Cur} (h : Near r r' c c') : Alike Eq (minus c.stats.read r) (minus c'.stats.read r') := by
  have h := h.2
  unfold minus
  by_cases h1 : r ≤ c.stats.read
  · rw [if_pos h1, if_pos (by omega)]
    show _ = _
    omega
  · rw [if_neg h1, if_neg (by omega)]
    trivial

theorem trapdoor_level {b : Str} {st st' : BlockSt} (h : Reads r r' st st') : Alike (Reads r r') (st.trapdoor b) (st'.trapdoor b) := by
  obtain ⟨h1, h2, h3, h4, h5, h6⟩ := h
  unfold BlockSt.trapdoor
  rw [h3, h4, h5, h6, h2]
  split
  · exact .same fun _ => ⟨h1, rfl, rfl, rfl, rfl, rfl⟩
  · exact ⟨h1, h2, h3, h4, h5, h6⟩

theorem contentStart_level {st st' : BlockSt} (h : Reads r r' st st') : Alike Eq (st.contentStart r) (st'.contentStart r') := by
  obtain ⟨h1, h2, h3, h4, h5, h6⟩ := h
  unfold BlockSt.contentStart
  rw [h3, h4]
  split
  · split
    · exact minus_near h1.1
    · exact rfl
  · exact rfl

theorem contentEnd_level {b : Bool} {s : Str} {c c' : Cur} (h : Level r r' c c') : Alike Eq (contentEnd b r c s) (contentEnd b r' c' s) := by
  unfold contentEnd
  split
  · exact minus_near h.1
  · exact rfl

theorem blockLines_level {b : Str} {fold : Bool} {i : Nat} : ∀ fuel {st st' : BlockSt}, Reads r r' st st' →
    Alike (Reads r r') (blockLines opts b r fold i fuel st) (blockLines opts b r' fold i fuel st')
  | 0, _, _, _ => trivial
  | fuel + 1, st, st', h => by
    rw [blockLines, blockLines, h.1.1.1, h.1.2]
    split
    · refine (trapdoor_level h).bind fun u u' h => (contentStart_level h).bind fun x x' hx => ?_
      obtain ⟨h1, h2, h3, h4, h5, h6⟩ := h
      subst hx
      rw [h1.1.1]
      refine .same fun _ => (toBreak_level _ h1).bind fun c c' hc => ?_
      dsimp only
      rw [h3, h2, h6, hc.1.1]
      refine (contentEnd_level hc).bind fun y y' hy => ?_
      subst hy
      refine (eatBreak_level hc).bind fun ⟨c1, n1⟩ ⟨c1', n1'⟩ h => ?_
      obtain ⟨hc, rfl⟩ := h
      refine (scanIndent_level hc).bind fun ⟨c2, n2⟩ ⟨c2', n2'⟩ h => ?_
      obtain ⟨hc, rfl⟩ := h
      exact blockLines_level fuel ⟨hc, rfl, rfl, rfl, rfl, rfl⟩
    · exact h

theorem blockBegin_level {d d' : DetectSt} (h : Found r r' d d') : Alike (Reads r r') (blockBegin r d) (blockBegin r' d') := by
  obtain ⟨h1, -, h3, h4⟩ := h
  unfold blockBegin
  rw [h4]
  split
  · exact (minus_near h1.1).bind fun _ _ h => ⟨h1, rfl, rfl, h.symm, rfl, rfl⟩
  · exact ⟨h1, by dsimp only; rw [h3], rfl, rfl, rfl, rfl⟩

theorem scanChomp_level {b : Str} {ch : ChompStyle} {st st' : BlockSt} (h : Reads r r' st st') : scanChomp b ch st' = scanChomp b ch st := by
  obtain ⟨h1, h2, h3, h4, h5, h6⟩ := h
  unfold scanChomp
  rw [h2, h3, h4, h5, h6]

theorem lazyLoop_level {i : Nat} : ∀ fuel {c c' : Cur}, Level r r' c c' → Alike (Level r r') (blockLazyLoop opts i fuel c) (blockLazyLoop opts i fuel c')
  | 0, _, _, _ => trivial
  | fuel + 1, c, c', h => by
    rw [blockLazyLoop, blockLazyLoop, h.1.1, h.2]
    split
    · refine .same fun _ => (toBreak_level _ h).bind fun c c' h => (eatBreak_level h).bind fun _ _ h => (scanIndent_level h.1).bind fun _ _ h => ?_
      exact lazyLoop_level fuel h.1
    · exact h

theorem scanBlock_near {base : Nat} {fold : Bool} {s : Str} {m m' : MStats} :
    Alike (fun x x' : MaybeToken × Cur => x'.2.buf = x.2.buf) (scanBlock opts base fold ⟨s, m⟩) (scanBlock opts base fold ⟨s, m'⟩) := by
  have h0 : Near m.read m'.read ⟨s, m⟩ ⟨s, m'⟩ := ⟨rfl, Nat.add_comm _ _⟩
  unfold scanBlock
  split
  · unfold scanBlockLazy
    simp only [bind_assoc]
    refine (blockHeader_near h0).bind fun ⟨ch, ex, c1⟩ ⟨ch', ex', c1'⟩ h => ?_
    obtain ⟨h1, h2, h⟩ := h
    dsimp only at h1 h2 h
    subst h1 h2
    refine (blockIndent_level h).bind fun d d' h => ?_
    rw [h.2.1]
    refine (lazyLoop_level _ h.1).bind fun c c' h => ?_
    rw [h.1.1]
    exact .same fun _ => h.1.1
  · unfold scanBlockEager
    simp only [bind_assoc]
    refine (blockHeader_near h0).bind fun ⟨ch, ex, c1⟩ ⟨ch', ex', c1'⟩ h => ?_
    obtain ⟨h1, h2, h⟩ := h
    dsimp only at h1 h2 h
    subst h1 h2
    refine (blockIndent_level h).bind fun d d' h => (blockBegin_level h).bind fun st st' hs => ?_
    rw [h.2.1]
    refine (blockLines_level _ hs).bind fun st st' h => ?_
    rw [scanChomp_level h]
    exact .same fun _ => h.1.1.1

/-- What is wrong with a block scalar does not depend on where it stands. -/
theorem scanBlock_err {base : Nat} {fold : Bool} {s : Str} {m : MStats} {e : ScanError} (h : scanBlock opts base fold ⟨s, m⟩ = .err e) (m' : MStats) :
    scanBlock opts base fold ⟨s, m'⟩ = .err e := scanBlock_near.err h

end Yary.Shift
