import Verif.Proof.Scan.JamQuoted
import Verif.Proof.Scan.PlainText

/-! # Where the scanner panics: plain scalars -/

namespace Yary

open Spec

variable {opts : SFlags} {J : Prop} {block : Bool} {indent : Nat} {c : Cur}

/-- A character of more than one byte in a word. -/
def WideWord (block : Bool) (s : Str) : Prop := ∃ w t, s = w ++ t ∧ (∀ a b, w = a ++ b → ¬ PlainStops block (b ++ t)) ∧ Wide t

theorem WideWord.here {s : Str} (h : ¬ PlainStops block s) (hw : Wide s) : WideWord block s := by
  refine ⟨[], s, rfl, ?_, hw⟩
  intro a b hab
  obtain ⟨rfl, rfl⟩ := List.append_eq_nil_iff.1 hab.symm
  exact h

theorem WideWord.cons {b : Byte} {s : Str} (h : ¬ PlainStops block (b :: s)) (hw : WideWord block s) : WideWord block (b :: s) := by
  obtain ⟨w, t, rfl, h1, h2⟩ := hw
  refine ⟨b :: w, t, rfl, ?_, h2⟩
  intro x y hxy
  cases x with
  | nil =>
    simp only [List.nil_append] at hxy
    rw [← hxy]; exact h
  | cons x xs =>
    simp only [List.cons_append, List.cons.injEq] at hxy
    exact h1 xs y hxy.2

theorem PlainInv.unique {st : PlainSt} {v v' : Str} (h : PlainInv c st v) (h' : PlainInv c st v') : v = v' := by
  cases hb : st.canBorrow with
  | true => exact List.append_cancel_right ((h.borrow hb).2.1.symm.trans (h'.borrow hb).2.1)
  | false => exact (h.copy hb).1.symm.trans (h'.copy hb).1

theorem PlainInv.push_jams {st : PlainSt} {v t : Str} {b : Byte} (hi : PlainInv c st v) (hv : validUtf8 st.cur.buf = true) (hb : st.cur.buf = b :: t)
    (hn : isBreak st.cur.buf = false) : Jams st.push (fun st' => PlainInv c st' (v ++ [b]) ∧ st'.cur.buf = t ∧ b < 0x80 ∧ validUtf8 t = true)
      (Wide st.cur.buf) := by
  have hp := (hi.push (P := True) (.inl trivial) hb (hb ▸ hn)).par
  have : Jams st.push (fun _ => b < 0x80 ∧ validUtf8 t = true) (Wide st.cur.buf) := by
    unfold PlainSt.push
    refine (adv_char_jams hb hv hn).bind ?_
    rintro _ ⟨-, h1, h2⟩
    exact .ok ⟨h1, h2⟩
  refine (this.and hp).post ?_
  rintro st' ⟨⟨h1, h2⟩, h3, h4, -⟩
  exact ⟨h3, h4, h1, h2⟩

theorem PlainInv.noBorrow_jams {st : PlainSt} {v : Str} (h0 : validUtf8 c.buf = true) (hi : PlainInv c st v) (hv : validUtf8 st.cur.buf = true) :
    Jams (st.noBorrow c.buf) (fun st' => st' = { st with scratch := v, canBorrow := false }) J := by
  have hp := (hi.noBorrow (P := True) (.inl trivial)).par
  have : Jams (st.noBorrow c.buf) (fun _ => True) J := by
    unfold PlainSt.noBorrow
    split
    · rename_i h
      obtain ⟨-, h1, -⟩ := hi.borrow h
      refine (slice_jams (p := []) (q := v) (t := st.cur.buf) h1 rfl ?_ (h1 ▸ h0) hv).bind fun _ _ => .ok trivial
      rw [h1]; simp
    · exact .ok trivial
  exact (this.and hp).post fun _ h => h.2

theorem ascii_snoc {v : Str} {b : Byte} (h : Ascii v) (hb : b < 0x80) : Ascii (v ++ [b]) := h.append (.cons hb .nil)

theorem plainWord_jams {fuel : Nat} {st : PlainSt} {v : Str} (hi : PlainInv c st v) (ha : Ascii v) (hv : validUtf8 st.cur.buf = true) :
    Jams (plainWord opts block fuel st) (fun st' => ∃ v', PlainInv c st' v' ∧ Ascii v' ∧ validUtf8 st'.cur.buf = true) (WideWord block st.cur.buf) := by
  induction fuel generalizing st v with
  | zero => exact .diverge
  | succ fuel ih =>
    rw [plainWord]
    split
    · exact .ok ⟨v, hi, ha, hv⟩
    · rename_i hz
      obtain ⟨b, t, hbuf, hnb, hbl⟩ := isWhiteSpaceZ_false hz
      refine cache_jam ?_
      split
      · exact .ok ⟨v, hi, ha, hv⟩
      · rename_i he
        have hns : ¬ PlainStops block st.cur.buf := by rw [stops_iff]; simp [hz, he]
        refine ((hi.push_jams hv hbuf hnb).mono (fun _ h => h) fun h => .here hns h).bind ?_
        rintro st1 ⟨h1, h2, h3, h4⟩
        refine (ih h1 (ascii_snoc ha h3) (by rw [h2]; exact h4)).mono (fun _ h => h) ?_
        rw [h2, hbuf]
        exact fun h => .cons (hbuf ▸ hns) h

theorem plainSpace_jams {fuel : Nat} {st : PlainSt} {v : Str} (h0 : validUtf8 c.buf = true) (hi : PlainInv c st v) (ha : Ascii v)
    (hv : validUtf8 st.cur.buf = true) :
    Jams (plainSpace opts c.buf fuel st) (fun st' => ∃ v', PlainInv c st' v' ∧ Ascii v' ∧ validUtf8 st'.cur.buf = true) J := by
  induction fuel generalizing st v with
  | zero => exact .diverge
  | succ fuel ih =>
    rw [plainSpace]
    refine cache_jam ?_
    split
    · rename_i hbl
      obtain ⟨b, t, hbuf, hb⟩ := isBlank_iff.1 hbl
      refine ((hi.push_jams hv hbuf (isBlank_break hbl)).mono (fun _ h => h) ?_).bind ?_
      · rintro ⟨⟨x, y, h1, h2⟩, -⟩
        rw [hbuf] at h1
        obtain ⟨rfl, -⟩ := List.cons.inj h1
        rcases hb with rfl | rfl <;> byte_omega
      · rintro st1 ⟨h1, h2, h3, h4⟩
        exact ih (st := { st1 with whitespace := st1.whitespace + 1 }) ⟨h1.reads, h1.borrow, h1.copy⟩ (ascii_snoc ha h3)
          (by simp only; rw [h2]; exact h4)
    · split
      · rename_i hbr
        refine (hi.noBorrow_jams h0 hv).bind ?_
        rintro _ rfl
        simp only
        refine ((line_jams hv hbr).and (line_one (P := True) (.inl trivial) hbr).par).bind ?_
        rintro _ ⟨⟨-, w, t, -, g1, rfl, g2⟩, hr, -, hs', -⟩
        refine ih (v := v) ⟨hi.reads.trans hr, fun h => (by cases h), fun _ => ⟨rfl, ?_⟩⟩ ha g2
        have := hi.reads.lines_le
        simp only [MStats.update]
        omega
      · exact .ok ⟨v, hi, ha, hv⟩

theorem plainJoin_jams {st : PlainSt} {v bl : Str} (hi : PlainInv c st (v ++ bl)) (hw : st.whitespace = bl.length)
    (hb : st.canBorrow = true → st.lines = 0) (ha : Ascii (v ++ bl)) :
    Jams (plainJoin st) (fun st' => ∃ v', PlainInv c st' v' ∧ Ascii v') J := by
  unfold plainJoin
  have nb : st.lines ≠ 0 → st.canBorrow = false := by
    intro hn
    cases h : st.canBorrow with
    | false => rfl
    | true => exact absurd (hb h) hn
  split
  · exact .ok ⟨_, hi, ha⟩
  · rename_i h1
    have hnb := nb (by omega)
    obtain ⟨hs, hlt⟩ := hi.copy hnb
    rw [hs]
    refine (truncEnd_jams hw.symm).bind ?_
    rintro _ rfl
    refine .ok ⟨_, ⟨hi.reads, fun h => ?_, fun _ => ⟨rfl, hlt⟩⟩, ha.left.append (.cons (by decide) .nil)⟩
    have h : st.canBorrow = true := h
    rw [hnb] at h; cases h
  · rename_i m h1
    have hnb := nb (by omega)
    obtain ⟨hs, hlt⟩ := hi.copy hnb
    rw [hs]
    refine (truncEnd_jams hw.symm).bind ?_
    rintro _ rfl
    refine .ok ⟨_, ⟨hi.reads, fun h => ?_, fun _ => ⟨rfl, hlt⟩⟩, ha.left.append (.replicate _ (by decide))⟩
    have h : st.canBorrow = true := h
    rw [hnb] at h; cases h

/-- Where the main loop is at the start of a word. -/
theorem goes_on {s : Str} {n : Nat} (hns : isWhiteSpace s = false) (h1 : ¬ s.isEmpty = true) (h3 : ¬ (isDocumentIndicator s n || startsWith s b! '#') = true)
    (h4 : ¬ plainEnd block s = true) : PlainGoesOn block 0 n s := by
  simp only [Bool.or_eq_true, not_or] at h3
  refine ⟨fun _ => Nat.zero_le _, fun hc => not_marker h3.1 hc.1 hc.2, ?_, ?_⟩
  · intro t ht
    apply h3.2
    rw [ht]; simp [startsWith]
  · rw [stops_iff]
    rintro (h | h)
    · simp only [isWhiteSpace] at hns
      simp only [isWhiteSpaceZ, hns] at h
      simp_all
    · exact h4 h

/-- The next word. -/
theorem next_word {a b d : Cur} {w p : Str} {n : Nat} {m : MStats} {s : Str} (hin : InPlain block indent m s a.stats a.buf)
    (hne : ¬ PlainStops block a.buf) (hw : a.buf = w ++ b.buf) (hw1 : ∀ x y, w = x ++ y → y ≠ [] → ¬ PlainStops block (y ++ b.buf))
    (hstop : PlainStops block b.buf) (hp : b.buf = p ++ d.buf) (hs : Skips false b.buf n d.buf) (hr : Reads a d)
    (ho : (block && decide (d.stats.column < indent)) = false) (hg : PlainGoesOn block 0 d.stats.column d.buf) :
    InPlain block indent m s d.stats d.buf := by
  have hwne : w ≠ [] := by
    rintro rfl
    rw [List.nil_append] at hw
    exact hne (hw ▸ hstop)
  have hpos : d.stats = posAfter a.stats (w ++ p) := by
    obtain ⟨q, hq, hst⟩ := hr.posAfter
    rw [hst]
    congr 1
    rw [hw, hp, ← List.append_assoc] at hq
    exact (List.append_cancel_right hq).symm
  rw [hp] at hw1 hstop hs
  rw [hw, hp] at hin
  have hg' : PlainGoesOn block indent d.stats.column d.buf := by
    refine ⟨fun hb => ?_, hg.2⟩
    subst hb
    simpa using ho
  rw [hpos] at hg' ⊢
  exact .more hin ⟨hwne, hw1, hstop⟩ hs hg'

theorem plainLoop_jams {fuel : Nat} {st : PlainSt} {v : Str} (h0 : validUtf8 c.buf = true) (hi : PlainInv c st v) (ha : Ascii v)
    (hv : validUtf8 st.cur.buf = true) (hcs : ∃ cs, cs.stats = st.scalarStats ∧ Reads c cs ∧ validUtf8 cs.buf = true)
    (hns : isWhiteSpace st.cur.buf = false)
    (hin : st.outdent = false → PlainGoesOn block 0 st.cur.stats.column st.cur.buf → InPlain block indent c.stats c.buf st.cur.stats st.cur.buf) :
    Jams (plainLoop opts c.buf indent block fuel st)
      (fun st' => (∃ v', PlainInv c st' v' ∧ Ascii v') ∧ ∃ cs, cs.stats = st'.scalarStats ∧ Reads c cs ∧ validUtf8 cs.buf = true)
      (PlainJam false block indent c.stats c.buf) := by
  induction fuel generalizing st v with
  | zero => exact .diverge
  | succ fuel ih =>
    rw [plainLoop]
    refine cache_jam ?_
    split
    · exact .ok ⟨⟨v, hi, ha⟩, hcs⟩
    split
    · exact .ok ⟨⟨v, hi, ha⟩, hcs⟩
    split
    · exact .ok ⟨⟨v, hi, ha⟩, hcs⟩
    split
    · exact .ok ⟨⟨v, hi, ha⟩, hcs⟩
    rename_i h1 h2 h3 h4
    have hgo : PlainGoesOn block 0 st.cur.stats.column st.cur.buf := goes_on hns h1 h3 h4
    have hin := hin (by simpa using h2) hgo
    have hi0 : PlainInv c { st with whitespace := 0, lines := 0 } v := ⟨hi.reads, hi.borrow, hi.copy⟩
    refine Jams.bind (((plainWord_jams hi0 ha hv).mono (fun _ h => h) ?_).and (plainWord_par hi0)) ?_
    · rintro ⟨w, t, g1, g2, g3⟩
      simp only at g1
      rw [g1] at hin
      exact .wide hin g2 g3
    rintro st1 ⟨⟨v1, a1, a2, hv1⟩, w, hi1, hb1, hw1, hstop1, hr1, -, -, hws1, hl1⟩
    cases hi1.unique a1
    simp only at hb1 hr1 hws1 hl1
    have hi1' : PlainInv c { st1 with scalarStats := st1.cur.stats } (v ++ w) := ⟨hi1.reads, hi1.borrow, hi1.copy⟩
    refine ((plainSpace_jams h0 hi1' a2 hv1).and (plainSpace_par hi1' (fun _ => hl1))).bind ?_
    rintro st2 ⟨⟨v2, a3, a4, hv2⟩, n, p, bl, hsk, hp, hr2, hi2, hws2, hl2, hn, hcb, hs2, ho2⟩
    cases hi2.unique a3
    simp only [hws1, hl1, Nat.zero_add] at hsk hp hr2 hws2 hl2 hs2
    have hi2' : PlainInv c { st2 with outdent := block && decide (st2.cur.stats.column < indent) } (v ++ w ++ bl) :=
      ⟨hi2.reads, hi2.borrow, hi2.copy⟩
    refine ((plainJoin_jams hi2' hws2 hcb a4).and (plainJoin_par hi2' hws2 hl2 hcb hn)).bind ?_
    rintro st3 ⟨⟨v3, a5, a6⟩, -, -, hcur3, hs3, ho3⟩
    simp only at hcur3 hs3 ho3
    refine ih a5 a6 (by rw [hcur3]; exact hv2) ⟨st1.cur, by rw [hs3, hs2], hi1.reads, hv1⟩ (by rw [hcur3]; exact hsk.end_white) ?_
    intro ho hg
    rw [hcur3] at hg ⊢
    exact next_word hin hgo.2.2.2 hb1 hw1 hstop1 hp hsk (hr1.trans hr2) (ho3.symm.trans ho) hg

theorem reads_split {a b : Cur} (h : Reads a b) : ∃ p, a.buf = p ++ b.buf ∧ b.stats.read - a.stats.read = p.length := by
  obtain ⟨p, hp⟩ := h.suffix
  have := h.read
  rw [hp] at this
  simp at this
  exact ⟨p, hp, by omega⟩

/-- Plain scalars. -/
theorem scanPlainEager_jams (hv : validUtf8 c.buf = true) (hst : PlainStart block c) :
    Jams (scanPlainEager opts indent block c) (fun r => validUtf8 r.2.buf = true) (PlainJam false block indent c.stats c.buf) := by
  rw [scanPlainEager_eq]
  refine cache_jam ?_
  split
  · exact .err
  have hi : PlainInv c { cur := c, scalarStats := c.stats } [] :=
    ⟨.refl c, fun _ => ⟨rfl, rfl, rfl⟩, fun h => (by cases h)⟩
  refine ((plainLoop_jams hv hi .nil hv ⟨c, rfl, .refl c, hv⟩ hst.white fun _ _ => .start).and (plainLoop_par hi hst.white rfl hst.goesOn)).bind ?_
  rintro st ⟨⟨⟨v', a1, a2⟩, cs', a3, a4, a5⟩, v, tail, cs, hi, htl, hcs, hr1, hr2, -, hone⟩
  cases hi.unique a1
  simp only [List.nil_append] at hi hone a2
  have hcv : validUtf8 cs.buf = true := by
    rw [hr1.drop_eq, hcs, ← a3, ← a4.drop_eq]
    exact a5
  rw [← hcs]
  obtain ⟨p, hp, hlen⟩ := reads_split hr1
  rw [hlen]
  refine Jams.bind (Q := fun _ => True) ?_ fun _ _ => (skip_jams (c := ⟨c.buf, cs.stats⟩) hp rfl hcv).bind fun _ h => .ok (h ▸ hcv)
  unfold plainSlice
  split
  · exact (slice_jams (p := []) (q := p) (t := cs.buf) hp rfl (by simp) (hp ▸ hv) hcv).post fun _ _ => trivial
  · rename_i hcb
    rw [(hi.copy (by simpa using hcb)).1]
    refine (truncEnd_jams htl).bind ?_
    rintro _ rfl
    unfold fromUtf8Unwrap
    rw [if_pos a2.left.validUtf8]
    exact .ok trivial

/-! ### Plain scalars that are not read at once -/

/-- How far the scanner looks past the end of the scalar. -/
def lookPast (s : Str) : Nat := if isWhiteSpace (s.drop 1) then 2 else 1

theorem plainLazyWord_jams {fuel : Nat} {st : PlainLazySt} (hv : validUtf8 st.cur.buf = true) :
    Jams (plainLazyWord opts block fuel st) (fun r => ∃ w cs, st.cur.buf = w ++ cs.buf ∧ validUtf8 cs.buf = true ∧ Reads st.cur cs ∧
      (∀ x y, w = x ++ y → y ≠ [] → ¬ PlainStops block (y ++ cs.buf)) ∧ PlainStops block cs.buf ∧
      (r.1 = false → r.2.cur = cs) ∧
      (r.1 = true → isWhiteSpaceZ cs.buf = false ∧ plainEnd block cs.buf = true ∧ r.2.scalarStats = cs.stats ∧
        r.2.cur.stats.read = cs.stats.read + lookPast cs.buf)) (WideWord block st.cur.buf) := by
  induction fuel generalizing st with
  | zero => exact .diverge
  | succ fuel ih =>
    rw [plainLazyWord]
    have none : ∀ x y : Str, [] = x ++ y → y ≠ [] → ¬ PlainStops block (y ++ st.cur.buf) := fun x y h hy =>
      absurd (List.append_eq_nil_iff.1 h.symm).2 hy
    split
    · rename_i hz
      exact .ok ⟨[], st.cur, rfl, hv, .refl _, none, stops_iff.2 (.inl hz), fun _ => rfl, fun h => (by cases h)⟩
    · rename_i hz
      obtain ⟨b, t, hbuf, hnb, hbl⟩ := isWhiteSpaceZ_false hz
      refine cache_jam ?_
      split
      · rename_i he
        exact .ok ⟨[], st.cur, rfl, hv, .refl _, none, stops_iff.2 (.inr he), fun h => (by cases h), fun _ => ⟨by simpa using hz, he, rfl, rfl⟩⟩
      · rename_i he
        have hns : ¬ PlainStops block st.cur.buf := by rw [stops_iff]; simp [hz, he]
        refine (((adv_char_jams hbuf hv hnb).mono (fun _ h => h) fun h => .here hns h).and
          (adv_one (P := True) (.inl trivial) (by simp [hbuf]) hnb).par).bind ?_
        rintro _ ⟨⟨rfl, h1, h2⟩, hr, -, -, -⟩
        refine (ih (st := { st with cur := ⟨t, st.cur.stats.update 1 0 1⟩ }) h2).mono ?_ ?_
        · rintro r ⟨w, cs, k1, k2, k3, k4, k5, k6, k7⟩
          simp only at k1 k3
          refine ⟨b :: w, cs, by rw [hbuf, k1]; rfl, k2, hr.trans k3, ?_, k5, k6, k7⟩
          intro x y hxy hy
          cases x with
          | nil =>
            simp only [List.nil_append] at hxy
            rw [← hxy, List.cons_append, ← k1, ← hbuf]; exact hns
          | cons x xs =>
            simp only [List.cons_append, List.cons.injEq] at hxy
            exact k4 xs y hxy.2 hy
        · intro h
          rw [hbuf]
          exact .cons (hbuf ▸ hns) h

theorem plainLazySpace_jams {fuel : Nat} {st : PlainLazySt} (hv : validUtf8 st.cur.buf = true) :
    Jams (plainLazySpace opts fuel st) (fun st' => ∃ p n, st.cur.buf = p ++ st'.cur.buf ∧ Skips false st.cur.buf n st'.cur.buf ∧ Reads st.cur st'.cur ∧
      validUtf8 st'.cur.buf = true ∧ st'.scalarStats = st.scalarStats) J := by
  induction fuel generalizing st with
  | zero => exact .diverge
  | succ fuel ih =>
    rw [plainLazySpace]
    refine cache_jam ?_
    split
    · rename_i hbl
      obtain ⟨b, t, hbuf, hb⟩ := isBlank_iff.1 hbl
      have ht := valid_tail (hbuf ▸ hv) (by rcases hb with rfl | rfl <;> decide)
      refine ((adv_jams (p := [b]) hbuf rfl ht).and (adv_one (P := True) (.inl trivial) (by simp [hbuf]) (isBlank_break hbl)).par).bind ?_
      rintro _ ⟨rfl, hr, -, -, -⟩
      refine (ih (st := { st with cur := ⟨t, st.cur.stats.update 1 0 1⟩ }) ht).post ?_
      rintro st' ⟨p, n, k1, k2, k3, k4, k5⟩
      simp only at k1 k2 k3 k5
      exact ⟨b :: p, n, by rw [hbuf, k1]; rfl, by rw [hbuf]; exact .blank hb k2, hr.trans k3, k4, k5⟩
    · rename_i hnbl
      split
      · rename_i hbr
        refine ((line_jams hv hbr).and (line_one (P := True) (.inl trivial) hbr).par).bind ?_
        rintro _ ⟨⟨-, w, t, g0, g1, rfl, g2⟩, hr, -⟩
        refine (ih (st := { st with cur := ⟨t, st.cur.stats.update w.length 1 0⟩ }) g2).post ?_
        rintro st' ⟨p, n, k1, k2, k3, k4, k5⟩
        simp only at k1 k2 k3 k5
        exact ⟨w ++ p, n + 1, by rw [g1, k1, List.append_assoc], by rw [g1]; exact .line g0 k2, hr.trans k3, k4, k5⟩
      · rename_i hnb
        exact .ok ⟨[], 0, rfl, .done (not_blank.1 (by simpa using hnbl)).1 (not_blank.1 (by simpa using hnbl)).2
            (not_break.1 (by simpa using hnb)) (fun h => by cases h), .refl _, hv, rfl⟩

/-- Where a plain scalar ends, and up to where the scanner looks. -/
def LazyEnd (block : Bool) (indent : Nat) (c : Cur) (st : PlainLazySt) : Prop :=
  ∃ cs, cs.stats = st.scalarStats ∧ Reads c cs ∧ validUtf8 cs.buf = true ∧ (
    (∃ d, Reads c d ∧ validUtf8 d.buf = true ∧ st.cur.stats.read = d.stats.read) ∨
    ∃ m' w, InPlain block indent c.stats c.buf m' (w ++ cs.buf) ∧ PlainWord block w cs.buf ∧ isWhiteSpaceZ cs.buf = false ∧
      plainEnd block cs.buf = true ∧ st.cur.stats.read = cs.stats.read + lookPast cs.buf)

theorem plainLazyLoop_jams {fuel : Nat} {st : PlainLazySt} (hr0 : Reads c st.cur) (hv : validUtf8 st.cur.buf = true)
    (hcs : ∃ cs, cs.stats = st.scalarStats ∧ Reads c cs ∧ validUtf8 cs.buf = true) (hns : isWhiteSpace st.cur.buf = false)
    (hin : st.outdent = false → PlainGoesOn block 0 st.cur.stats.column st.cur.buf → InPlain block indent c.stats c.buf st.cur.stats st.cur.buf) :
    Jams (plainLazyLoop opts c.buf indent block fuel st) (fun st' => LazyEnd block indent c st') (PlainJam true block indent c.stats c.buf) := by
  induction fuel generalizing st with
  | zero => exact .diverge
  | succ fuel ih =>
    rw [plainLazyLoop]
    refine cache_jam ?_
    have stop : LazyEnd block indent c st := by
      obtain ⟨cs, h1, h2, h3⟩ := hcs
      exact ⟨cs, h1, h2, h3, .inl ⟨st.cur, hr0, hv, rfl⟩⟩
    split
    · exact .ok stop
    split
    · exact .ok stop
    split
    · exact .ok stop
    split
    · exact .ok stop
    rename_i h1 h2 h3 h4
    have hgo : PlainGoesOn block 0 st.cur.stats.column st.cur.buf := goes_on hns h1 h3 h4
    have hin := hin (by simpa using h2) hgo
    refine Jams.bind ((plainLazyWord_jams hv).mono (fun _ h => h) ?_) ?_
    · rintro ⟨w, t, g1, g2, g3⟩
      rw [g1] at hin
      exact .wide hin g2 g3
    rintro ⟨done, st1⟩ ⟨w, cs, k1, k2, k3, k4, k5, k6, k7⟩
    cases done with
    | true =>
      obtain ⟨e1, e2, e3, e4⟩ := k7 rfl
      have hwne : w ≠ [] := by
        rintro rfl
        rw [List.nil_append] at k1
        exact hgo.2.2.2 (k1 ▸ k5)
      rw [k1] at hin
      exact .ok ⟨cs, e3.symm, hr0.trans k3, k2, .inr ⟨_, w, hin, ⟨hwne, k4, k5⟩, e1, e2, e4⟩⟩
    | false =>
      have e := k6 rfl
      simp only [Bool.false_eq_true, ↓reduceIte] at e ⊢
      refine (plainLazySpace_jams (st := { st1 with scalarStats := st1.cur.stats }) (by rw [e]; exact k2)).bind ?_
      rintro st2 ⟨p, n, m1, m2, m3, m4, m5⟩
      simp only [e] at m1 m2 m3 m5
      refine ih (st := { st2 with outdent := block && decide (st2.cur.stats.column < indent) }) (hr0.trans (k3.trans m3)) m4
        ⟨cs, m5.symm, hr0.trans k3, k2⟩ m2.end_white ?_
      intro ho hg
      exact next_word hin hgo.2.2.2 k1 k4 k5 m1 m2 (k3.trans m3) ho hg

theorem plainEnd_head {s : Str} (h : plainEnd block s = true) : ∃ x t, s = x :: t ∧ x < 0x80 := by
  unfold plainEnd at h
  cases s with
  | nil => simp [startsWith, flowIndicator] at h
  | cons x t =>
    refine ⟨x, t, rfl, ?_⟩
    simp only [flowIndicator, startsWith, List.head?_cons, Bool.or_eq_true, Bool.and_eq_true, beq_iff_eq, Option.some.injEq] at h
    rcases h with ⟨rfl, -⟩ | ⟨-, h⟩
    · decide
    · rcases h with (((rfl | rfl) | rfl) | rfl) | rfl <;> decide

/-- Plain scalars that are not read at once. -/
theorem scanPlainLazy_jams (hv : validUtf8 c.buf = true) (hst : PlainStart block c) :
    Jams (scanPlainLazy opts indent block c) (fun r => validUtf8 r.2.buf = true) (PlainJam true block indent c.stats c.buf) := by
  rw [scanPlainLazy_eq]
  refine (plainLazyLoop_jams (.refl c) hv ⟨c, rfl, .refl c, hv⟩ hst.white fun _ _ => .start).bind ?_
  rintro st ⟨cs, h1, h2, h3, h4⟩
  obtain ⟨p, hp, hlen⟩ := reads_split h2
  refine Jams.bind (Q := fun _ => True) ?_ fun s _ => ?_
  · rcases h4 with ⟨d, e1, e2, e3⟩ | ⟨m', w, e1, e2, e3, e4, e5⟩
    · obtain ⟨q, hq, hql⟩ := reads_split e1
      rw [e3, hql]
      exact (slice_jams (p := []) (q := q) (t := d.buf) hq rfl (by simp) (hq ▸ hv) e2).post fun _ _ => trivial
    · obtain ⟨x, t, hx, hx8⟩ := plainEnd_head e4
      have ht := valid_tail (hx ▸ h3) hx8
      have hrd : c.stats.read ≤ cs.stats.read := h2.read_le
      have hlook : st.cur.stats.read - c.stats.read = p.length + lookPast cs.buf := by omega
      rw [hlook]
      by_cases hws : isWhiteSpace t = true
      · have h2' : lookPast cs.buf = 2 := by simp [lookPast, hx, hws]
        rw [h2']
        obtain ⟨y, u, rfl⟩ : ∃ y u, t = y :: u := by
          cases t with
          | nil => simp [isWhiteSpace, isBlank, isBreak, startsWith] at hws
          | cons y u => exact ⟨y, u, rfl⟩
        by_cases hy : y < 0x80
        · exact (slice_jams (p := []) (q := p ++ [x, y]) (t := u) (by simp [hp, hx]) rfl (by simp) (by simpa [hp, hx] using hv) (valid_tail ht hy)).post
            fun _ _ => trivial
        · have hbr : isBreak (y :: u) = true := by
            cases hb : isBreak (y :: u) with
            | true => rfl
            | false =>
              have hbl : isBlank (y :: u) = true := by simpa [isWhiteSpace, hb] using hws
              obtain ⟨z, r, h, hz⟩ := isBlank_iff.1 hbl
              obtain ⟨rfl, -⟩ := List.cons.inj h
              rcases hz with rfl | rfl <;> exact absurd (by decide) hy
          obtain ⟨b, r, g1, g2, -⟩ := break_split hbr
          refine ⟨fun _ _ => trivial, fun _ => ?_⟩
          rw [hx, g1] at e1 e2
          refine .cut rfl e1 e2 ⟨hx8, ?_⟩ g2 ?_
          · rw [white_iff]
            rw [hx, g1] at e3
            simp only [isWhiteSpaceZ, Bool.or_eq_false_iff] at e3
            simp [isWhiteSpace, e3]
          · cases b with
            | nil =>
              have := g2.1
              simp [lineBreaks] at this
            | cons z b =>
              obtain ⟨rfl, -⟩ := List.cons.inj g1
              exact ⟨y, b, rfl, by byte_omega⟩
      · have h2' : lookPast cs.buf = 1 := by simp [lookPast, hx, hws]
        rw [h2']
        exact (slice_jams (p := []) (q := p ++ [x]) (t := t) (by simp [hp, hx]) rfl (by simp) (by simpa [hp, hx] using hv) ht).post fun _ _ => trivial
  · rw [← h1, hlen]
    exact (skip_jams (c := ⟨c.buf, cs.stats⟩) hp rfl h3).bind fun _ h => .ok (h ▸ h3)

end Yary
