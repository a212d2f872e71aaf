import Verif.Proof.Scan.Means

/-! # Plain scalars: what the scanner reads, and what it makes of it -/

namespace Yary

open Spec

variable {opts : SFlags} {block : Bool} {indent : Nat} {c : Cur}

theorem isWhiteSpaceZ_iff {s : Str} : isWhiteSpaceZ s = true ↔ s = [] ∨ White s := by
  rw [white_iff]
  unfold isWhiteSpaceZ isWhiteSpace
  simp only [Bool.or_eq_true, List.isEmpty_iff]
  exact or_comm

theorem flowIndicator_iff {s : Str} : flowIndicator s = true ↔ ∃ b t, s = b :: t ∧ b ∈ bytes! ",[]{}" := by
  unfold flowIndicator
  cases s with
  | nil => simp [startsWith]
  | cons b t => 
    simp [startsWith, or_assoc]

theorem stops_iff {s : Str} : PlainStops block s ↔ isWhiteSpaceZ s = true ∨ plainEnd block s = true := by
  unfold PlainStops plainEnd
  rw [isWhiteSpaceZ_iff, Bool.or_eq_true, Bool.and_eq_true, Bool.and_eq_true, flowIndicator_iff, isWhiteSpaceZ_iff]
  have : (∃ t, s = b! ':' :: t ∧ (t = [] ∨ White t)) ↔ startsWith s b! ':' = true ∧ (s.drop 1 = [] ∨ White (s.drop 1)) := by
    constructor
    · rintro ⟨t, rfl, h⟩; exact ⟨by simp [startsWith], h⟩
    · rintro ⟨h1, h2⟩
      obtain ⟨t, rfl⟩ := startsWith_iff.1 h1
      exact ⟨t, rfl, h2⟩
  rw [this]
  simp [or_assoc]

/-- The loop over a word. -/
theorem plainWord_par {fuel : Nat} {st : PlainSt} {v : Str} (hi : PlainInv c st v) :
    Out.Par (plainWord opts block fuel st) (fun st' => ∃ w, PlainInv c st' (v ++ w) ∧
      st.cur.buf = w ++ st'.cur.buf ∧ (∀ a b, w = a ++ b → b ≠ [] → ¬ PlainStops block (b ++ st'.cur.buf)) ∧
      PlainStops block st'.cur.buf ∧ Reads st.cur st'.cur ∧ st'.scalarStats = st.scalarStats ∧
      st'.outdent = st.outdent ∧ st'.whitespace = st.whitespace ∧ st'.lines = st.lines) := by
  induction fuel generalizing st v with
  | zero => simp [plainWord]
  | succ fuel ih =>
    rw [plainWord]
    have stop : PlainStops block st.cur.buf → Out.Par (ε := ScanError) (.ok st) (fun st' => ∃ w, PlainInv c st' (v ++ w) ∧
      st.cur.buf = w ++ st'.cur.buf ∧ (∀ a b, w = a ++ b → b ≠ [] → ¬ PlainStops block (b ++ st'.cur.buf)) ∧
      PlainStops block st'.cur.buf ∧ Reads st.cur st'.cur ∧ st'.scalarStats = st.scalarStats ∧
      st'.outdent = st.outdent ∧ st'.whitespace = st.whitespace ∧ st'.lines = st.lines) := by
      intro h
      refine Out.Par.ok.2 ⟨[], by simpa using hi, rfl, ?_, h, .refl _, rfl, rfl, rfl, rfl⟩
      intro a b hab hb
      simp only [List.nil_eq, List.append_eq_nil_iff] at hab
      exact absurd hab.2 hb
    split
    · rename_i hz
      exact stop (stops_iff.2 (.inl hz))
    · rename_i hz
      obtain ⟨b, t, hbuf, hnb, hbl⟩ := isWhiteSpaceZ_false hz
      refine .skip fun _ => ?_
      split
      · rename_i he
        exact stop (stops_iff.2 (.inr he))
      · rename_i he
        have hns : ¬ PlainStops block st.cur.buf := by rw [stops_iff]; simp [hz, he]
        refine (hi.push (P := True) (.inl trivial) hbuf (hbuf ▸ hnb)).par.bind ?_
        rintro st1 ⟨hi1, hb1, hr1, hs1, ho1, hw1, hl1, -⟩
        refine (ih hi1).mono ?_
        rintro st2 ⟨w, hi2, hb2, hst2, hstop, hr2, hs2, ho2, hws2, hl2⟩
        have hb : st.cur.buf = (b :: w) ++ st2.cur.buf := by rw [hbuf, ← hb1, hb2]; rfl
        refine ⟨b :: w, by simpa using hi2, hb, ?_, hstop,
          hr1.trans hr2, hs2.trans hs1, ho2.trans ho1, hws2.trans hw1, hl2.trans hl1⟩
        intro x y hxy hy
        cases x with
        | nil =>
          simp only [List.nil_append] at hxy
          rw [← hxy, ← hb]; exact hns
        | cons x xs =>
          simp only [List.cons_append, List.cons.injEq] at hxy
          exact hst2 xs y hxy.2 hy

/-- The loop over white space. -/
theorem plainSpace_par {fuel : Nat} {st : PlainSt} {v : Str} (hi : PlainInv c st v) (hl0 : st.canBorrow = true → st.lines = 0) :
    Out.Par (plainSpace opts c.buf fuel st) (fun st' => ∃ n p bl, Skips false st.cur.buf n st'.cur.buf ∧
      st.cur.buf = p ++ st'.cur.buf ∧ Reads st.cur st'.cur ∧ PlainInv c st' (v ++ bl) ∧
      st'.whitespace = st.whitespace + bl.length ∧ st'.lines = st.lines + n ∧ (n = 0 → bl = p) ∧
      (st'.canBorrow = true → st'.lines = 0) ∧ st'.scalarStats = st.scalarStats ∧ st'.outdent = st.outdent) := by
  induction fuel generalizing st v with
  | zero => simp [plainSpace]
  | succ fuel ih =>
    rw [plainSpace]
    refine .skip fun _ => ?_
    split
    · rename_i hbl
      obtain ⟨b, t, hbuf, hb⟩ := isBlank_iff.1 hbl
      refine (hi.push (P := True) (.inl trivial) hbuf (hbuf ▸ isBlank_break hbl)).par.bind ?_
      rintro st1 ⟨hi1, hb1, hr1, hs1, ho1, hw1, hl1, hc1⟩
      have hi1' : PlainInv c { st1 with whitespace := st1.whitespace + 1 } (v ++ [b]) :=
        ⟨hi1.reads, hi1.borrow, hi1.copy⟩
      refine (ih hi1' (fun h => hl1.trans (hl0 (hc1 ▸ h)))).mono ?_
      rintro st2 ⟨n, p, bl, h1, h2, h3, h4, h5, h6, h7, h8, h9, h10⟩
      refine ⟨n, b :: p, b :: bl, ?_, ?_, hr1.trans h3, by simpa using h4, ?_, ?_, ?_, h8, h9.trans hs1, h10.trans ho1⟩
      · rw [hbuf]; exact .blank hb (hb1 ▸ h1)
      · rw [hbuf, ← hb1]
        simp only at h2
        rw [h2]; rfl
      · rw [h5]; simp only [List.length_cons]; omega
      · rw [h6]; simp only [hl1]
      · intro hn; rw [h7 hn]
    · rename_i hnbl
      split
      · rename_i hbr
        obtain ⟨w, t, e1, e2, e3⟩ := break_split hbr
        refine (hi.noBorrow (P := True) (.inl trivial)).par.bind ?_
        rintro st1 rfl
        simp only
        refine (line_one (P := True) (.inl trivial) hbr).par.bind ?_
        rintro c' ⟨hr, hbuf, hs', hlen⟩
        have hi1 : PlainInv c
            { st with scratch := v, canBorrow := false, cur := c', lines := st.lines + 1 } v := by
          refine ⟨hi.reads.trans hr, fun h => (by cases h), fun _ => ⟨rfl, ?_⟩⟩
          have := hi.reads.lines_le
          simp only [hs', MStats.update]
          omega
        refine (ih hi1 (fun h => by cases h)).mono ?_
        rintro st2 ⟨n, p, bl, h1, h2, h3, h4, h5, h6, h7, h8, h9, h10⟩
        simp only at h1 h2 h3 h5 h6 h9 h10
        rw [hbuf, e3] at h1 h2
        refine ⟨n + 1, w ++ p, bl, ?_, ?_, hr.trans h3, h4, h5, by omega, fun h => by omega, h8, h9, h10⟩
        · rw [e1]; exact .line e2 h1
        · rw [e1, h2, List.append_assoc]
      · rename_i hnb
        have hdone : Skips false st.cur.buf 0 st.cur.buf :=
          .done (not_blank.1 (by simpa using hnbl)).1 (not_blank.1 (by simpa using hnbl)).2
            (not_break.1 (by simpa using hnb)) (fun h => by cases h)
        exact Out.Par.ok.2 ⟨0, [], [], hdone, rfl, .refl _, by simpa using hi, by simp, rfl, fun _ => rfl, hl0, rfl, rfl⟩

/-- What lines are joined with. -/
theorem plainJoin_par {st : PlainSt} {v bl p : Str} {n : Nat} (hi : PlainInv c st (v ++ bl)) (hw : st.whitespace = bl.length)
    (hl : st.lines = n) (hb : st.canBorrow = true → st.lines = 0) (hp : n = 0 → bl = p) :
    Out.Par (plainJoin st) (fun st' => PlainInv c st' (v ++ plainBetween n p) ∧
      (plainBetween n p).length = st'.whitespace + st'.lines ∧ st'.cur = st.cur ∧
      st'.scalarStats = st.scalarStats ∧ st'.outdent = st.outdent) := by
  unfold plainJoin
  have nb : n ≠ 0 → st.canBorrow = false := by
    intro hn
    cases h : st.canBorrow with
    | false => rfl
    | true => rw [hb h] at hl; omega
  split
  · rename_i h0
    have : n = 0 := by omega
    subst this
    simp only [Out.Par.ok, plainBetween, ↓reduceIte]
    rw [← hp rfl]
    exact ⟨hi, by omega, trivial, trivial, trivial⟩
  · rename_i h1
    have : n = 1 := by omega
    subst this
    have hnb := nb (by omega)
    obtain ⟨hs, hlt⟩ := hi.copy hnb
    rw [hs]
    refine (truncEnd_par hw.symm).bind ?_
    rintro s rfl
    simp only [Out.Par.ok]
    refine ⟨⟨hi.reads, fun h => ?_, fun _ => ⟨rfl, hlt⟩⟩, by simp [plainBetween, folded, h1], trivial, trivial, trivial⟩
    have h : st.canBorrow = true := h
    rw [hnb] at h; cases h
  · rename_i m h1
    have : n = m + 2 := by omega
    subst this
    have hnb := nb (by omega)
    obtain ⟨hs, hlt⟩ := hi.copy hnb
    rw [hs]
    refine (truncEnd_par hw.symm).bind ?_
    rintro s rfl
    simp only [Out.Par.ok]
    refine ⟨⟨hi.reads, fun h => ?_, fun _ => ⟨rfl, hlt⟩⟩, by simp [plainBetween, folded], trivial, trivial, trivial⟩
    have h : st.canBorrow = true := h
    rw [hnb] at h; cases h

/-- The main loop stops where the scalar does not go on. -/
theorem plainLoop_stop {fuel : Nat} {base : Str} {st : PlainSt}
    (h : st.outdent = true ∨ ¬ PlainGoesOn block 0 st.cur.stats.column st.cur.buf) (hns : isWhiteSpace st.cur.buf = false) :
    Out.Par (plainLoop opts base indent block fuel st) (fun st' => st' = st) := by
  cases fuel with
  | zero => simp [plainLoop]
  | succ fuel =>
    rw [plainLoop]
    refine .skip fun _ => ?_
    split
    · exact Out.Par.ok.2 rfl
    split
    · exact Out.Par.ok.2 rfl
    split
    · exact Out.Par.ok.2 rfl
    split
    · exact Out.Par.ok.2 rfl
    rename_i h1 h2 h3 h4
    exfalso
    rcases h with h | h
    · exact h2 h
    · apply h
      simp only [Bool.or_eq_true, not_or] at h3
      refine ⟨fun _ => Nat.zero_le _, fun hc => not_marker h3.1 hc.1 hc.2, ?_, ?_⟩
      · intro t ht
        apply h3.2
        rw [ht]; simp [startsWith]
      · rw [stops_iff]
        rintro (h | h)
        · simp only [isWhiteSpace] at hns
          simp only [isWhiteSpaceZ, hns] at h
          simp_all
        · exact h4 h

/-- One round of the main loop. -/
theorem plainLoop_round {fuel : Nat} {base : Str} {st : PlainSt}
    (h : PlainGoesOn block 0 st.cur.stats.column st.cur.buf) (ho : st.outdent = false) {Q : PlainSt → Prop}
    (hq : Out.Par (plainWord opts block (base.length + 1) { st with whitespace := 0, lines := 0 } >>= fun st =>
      plainSpace opts base (base.length + 1) { st with scalarStats := st.cur.stats } >>= fun st =>
      plainJoin { st with outdent := block && st.cur.stats.column < indent } >>= fun st =>
      plainLoop opts base indent block fuel st) Q) :
    Out.Par (plainLoop opts base indent block (fuel + 1) st) Q := by
  rw [plainLoop]
  refine .skip fun _ => ?_
  obtain ⟨-, h2, h3, h4⟩ := h
  rw [stops_iff, not_or] at h4
  rw [if_neg, if_neg, if_neg, if_neg]
  · exact hq
  · exact h4.2
  · rw [Bool.or_eq_true, not_or]
    refine ⟨fun h => h2 (atMarker_of h), fun h => ?_⟩
    obtain ⟨t, ht⟩ := startsWith_iff.1 h
    exact h3 t ht
  · simp [ho]
  · intro h
    exact h4.1 (by simp [isWhiteSpaceZ, h])

theorem Spec.Skips.end_white {comments : Bool} {s t : Str} {n : Nat} (h : Skips comments s n t) : isWhiteSpace t = false := by
  induction h with
  | done h1 h2 h3 => simp [isWhiteSpace, not_blank.2 ⟨h1, h2⟩, not_break.2 h3]
  | blank _ _ ih => exact ih
  | line _ _ ih => exact ih
  | comment _ _ _ _ ih => exact ih

/-- The main loop reads a plain scalar, unless it does not begin here. -/
theorem plainLoop_par {fuel : Nat} {st : PlainSt} {v0 : Str} (hi : PlainInv c st v0) (hns : isWhiteSpace st.cur.buf = false)
    (ho : st.outdent = false) (hne : PlainGoesOn block 0 st.cur.stats.column st.cur.buf) :
    Out.Par (plainLoop opts c.buf indent block fuel st) (fun st' => ∃ v tail cs, PlainInv c st' (v0 ++ v ++ tail) ∧
      tail.length = st'.whitespace + st'.lines ∧ cs.stats = st'.scalarStats ∧ Reads c cs ∧ Reads cs st'.cur ∧
      PlainText block indent st.cur.stats st.cur.buf v cs.buf ∧ 
      (cs.stats.lines = c.stats.lines → c.buf = v0 ++ v ++ cs.buf)) := by
  induction fuel generalizing st v0 with
  | zero => simp [plainLoop]
  | succ fuel ih =>
    refine plainLoop_round hne ho ?_
    have hi0 : PlainInv c { st with whitespace := 0, lines := 0 } v0 := ⟨hi.reads, hi.borrow, hi.copy⟩
    refine (plainWord_par hi0).bind ?_
    rintro st1 ⟨w, hi1, hb1, hw1, hstop1, hr1, hs1, ho1, hws1, hl1⟩
    simp only at hb1 hr1 hws1 hl1
    have hi1' : PlainInv c { st1 with scalarStats := st1.cur.stats } (v0 ++ w) := ⟨hi1.reads, hi1.borrow, hi1.copy⟩
    refine (plainSpace_par hi1' (fun _ => hl1)).bind ?_
    rintro st2 ⟨n, p, bl, hsk, hp, hr2, hi2, hws2, hl2, hn, hcb, hs2, ho2⟩
    simp only [hws1, hl1, Nat.zero_add] at hsk hp hr2 hws2 hl2 hs2
    have hi2' : PlainInv c { st2 with outdent := block && decide (st2.cur.stats.column < indent) } (v0 ++ w ++ bl) :=
      ⟨hi2.reads, hi2.borrow, hi2.copy⟩
    refine (plainJoin_par hi2' hws2 hl2 hcb hn).bind ?_
    rintro st3 ⟨hi3, hlen3, hcur3, hs3, ho3⟩
    simp only at hcur3 hs3 ho3
    have hwne : w ≠ [] := by
      rintro rfl
      rw [List.nil_append] at hb1
      exact hne.2.2.2 (hb1 ▸ hstop1)
    have hword : PlainWord block w (p ++ st3.cur.buf) := by
      rw [hcur3, ← hp]
      exact ⟨hwne, hw1, hstop1⟩
    have hbuf : st.cur.buf = w ++ (p ++ st3.cur.buf) := by rw [hcur3, ← hp, ← hb1]
    have hpos : st3.cur.stats = posAfter st.cur.stats (w ++ p) := by
      obtain ⟨q, hq, hst⟩ := (hr1.trans hr2).posAfter
      rw [hcur3] at hbuf ⊢
      rw [hst]
      congr 1
      rw [hbuf, ← List.append_assoc] at hq
      exact (List.append_cancel_right hq).symm
    have hsk3 : Skips false (p ++ st3.cur.buf) n st3.cur.buf := by rw [hcur3, ← hp]; exact hsk
    have hns3 : isWhiteSpace st3.cur.buf = false := hsk3.end_white
    by_cases hg : PlainGoesOn block indent st3.cur.stats.column st3.cur.buf
    · have hg0 : PlainGoesOn block 0 st3.cur.stats.column st3.cur.buf := ⟨fun _ => Nat.zero_le _, hg.2⟩
      have ho3' : st3.outdent = false := by
        rw [ho3, ← hcur3]
        cases block with
        | false => rfl
        | true =>
          have := hg.1 rfl
          simp; omega
      refine (ih hi3 hns3 ho3' hg0).mono ?_
      rintro st4 ⟨v, tail, cs, g1, g2, g3, g4, g5, g6, g7⟩
      refine ⟨w ++ (plainBetween n p ++ v), tail, cs, by simpa using g1, g2, g3, g4, g5, ?_, by simpa using g7⟩
      rw [hbuf]
      rw [hpos] at hg g6
      exact .more hword hsk3 hg g6
    · refine (plainLoop_stop ?_ hns3).mono ?_
      · by_cases hg0 : PlainGoesOn block 0 st3.cur.stats.column st3.cur.buf
        · left
          rw [ho3, ← hcur3]
          have : ¬ (block = true → indent ≤ st3.cur.stats.column) := fun h => hg ⟨h, hg0.2⟩
          simp only [Classical.not_imp, Nat.not_le] at this
          simp [this]
        · exact .inr hg0
      · rintro _ rfl
        refine ⟨w, plainBetween n p, st1.cur, hi3, hlen3, by rw [hs3, hs2], hi1.reads, by rw [hcur3]; exact hr2, ?_, ?_⟩
        · rw [hbuf, hp, ← hcur3]
          rw [hpos] at hg
          exact .last hword hsk3 hg
        · intro hl
          cases hb : st1.canBorrow with
          | true => exact (hi1.borrow hb).2.1
          | false => have := (hi1.copy hb).2; omega

/-- The first word of a text is unique. -/
theorem Spec.PlainWord.unique {w u w' u' : Str} (h : PlainWord block w u) (h' : PlainWord block w' u') (he : w ++ u = w' ++ u') :
    w = w' ∧ u = u' := by
  have key : ∀ {w u w' u' : Str}, PlainWord block w u → PlainWord block w' u' → w ++ u = w' ++ u' → w'.length ≤ w.length := by
    intro w u w' u' h h' he
    refine Nat.le_of_not_lt fun hl => ?_
    have hw' : w' = w ++ w'.drop w.length := by
      have h1 : w = w'.take w.length := by
        have := congrArg (List.take w.length) he
        rw [List.take_left, List.take_append_of_le_length (by omega)] at this
        exact this
      conv => lhs; rw [← List.take_append_drop w.length w']
      rw [← h1]
    refine h'.2.1 w (w'.drop w.length) hw' (fun h0 => ?_) ?_
    · have := congrArg List.length h0
      simp at this
      omega
    · rw [hw', List.append_assoc] at he
      rw [← List.append_cancel_left he]
      exact h.2.2
  have hl : w.length = w'.length := Nat.le_antisymm (key h' h he.symm) (key h h' he)
  exact List.append_inj he hl

/-- A text is a plain scalar in one way. -/
theorem Spec.PlainText.unique {m : MStats} {s v r v' r' : Str} (h : PlainText block indent m s v r)
    (h' : PlainText block indent m s v' r') : v = v' ∧ r = r' := by
  have split : ∀ {w p t w' p' t' : Str} {n n' : Nat}, PlainWord block w (p ++ t) → PlainWord block w' (p' ++ t') →
      Skips false (p ++ t) n t → Skips false (p' ++ t') n' t' → w ++ (p ++ t) = w' ++ (p' ++ t') →
      w = w' ∧ p = p' ∧ t = t' ∧ n = n' := by
    intro w p t w' p' t' n n' h1 h2 h3 h4 he
    obtain ⟨rfl, hu⟩ := h1.unique h2 he
    rw [hu] at h3
    obtain ⟨rfl, rfl⟩ := h3.unique h4
    exact ⟨rfl, List.append_cancel_right hu, rfl, rfl⟩
  induction h generalizing v' r' with
  | @last m w p t n hw hs hn =>
    generalize hz : w ++ (p ++ t) = z at h'
    cases h' with
    | last hw' hs' hn' =>
      obtain ⟨rfl, rfl, rfl, rfl⟩ := split hw hw' hs hs' hz
      exact ⟨rfl, rfl⟩
    | more hw' hs' hg' h' =>
      obtain ⟨rfl, rfl, rfl, rfl⟩ := split hw hw' hs hs' hz
      exact absurd hg' hn
  | @more m w p t v r n hw hs hg h ih =>
    generalize hz : w ++ (p ++ t) = z at h'
    cases h' with
    | last hw' hs' hn' =>
      obtain ⟨rfl, rfl, rfl, rfl⟩ := split hw hw' hs hs' hz
      exact absurd hg hn'
    | more hw' hs' hg' h' =>
      obtain ⟨rfl, rfl, rfl, rfl⟩ := split hw hw' hs hs' hz
      obtain ⟨rfl, rfl⟩ := ih h'
      exact ⟨rfl, rfl⟩

theorem PlainStart.goesOn (h : PlainStart block c) : PlainGoesOn block 0 c.stats.column c.buf := by
  refine ⟨fun _ => Nat.zero_le _, fun hc => not_marker (by simp [h.marker]) hc.1 hc.2, fun t ht => ?_, ?_⟩
  · have := h.comment
    rw [ht] at this
    simp [startsWith] at this
  · rw [stops_iff]
    simp [h.ws, h.notEnd]

theorem PlainStart.white (h : PlainStart block c) : isWhiteSpace c.buf = false := by
  have := h.ws
  simp only [isWhiteSpaceZ, Bool.or_eq_false_iff] at this
  simp [isWhiteSpace, this]

theorem plainSlice_par {st : PlainSt} {n : Nat} {pre tail : Str} (hi : PlainInv c st (pre ++ tail))
    (htl : tail.length = st.whitespace + st.lines) (hb : st.canBorrow = true → n = pre.length) :
    Out.Par (plainSlice c.buf st n) (fun s => s = pre) := by
  unfold plainSlice
  split
  · rename_i hcb
    refine slice_par.mono ?_
    rintro s rfl
    obtain ⟨-, hv, -⟩ := hi.borrow hcb
    rw [hb hcb, hv]
    simp
  · rename_i hcb
    rw [(hi.copy (by simpa using hcb)).1]
    refine (truncEnd_par htl).bind ?_
    rintro s rfl
    unfold fromUtf8Unwrap
    split <;> simp

/-- What is scanned is a plain scalar. -/
theorem scanPlainEager_par (hst : PlainStart block c) :
    Out.Par (scanPlainEager opts indent block c) (fun r => ∃ v, r.1 = .Scalar v .Plain ∧ PlainText block indent c.stats c.buf v r.2.buf) := by
  rw [scanPlainEager_eq]
  refine .skip fun _ => ?_
  split
  · simp
  have hi : PlainInv c { cur := c, scalarStats := c.stats } [] :=
    ⟨.refl c, fun _ => ⟨rfl, rfl, rfl⟩, fun h => (by cases h)⟩
  refine (plainLoop_par hi hst.white rfl hst.goesOn).bind ?_
  rintro st ⟨v, tail, cs, hi, htl, hcs, hr1, hr2, ht, hone⟩
  simp only [List.nil_append] at hi ht hone
  rw [← hcs]
  have hread := hr1.read
  refine (plainSlice_par hi htl ?_).bind ?_
  · intro hb
    obtain ⟨-, hv, hl⟩ := hi.borrow hb
    have hl1 := hr1.lines_le
    have hl2 := hr2.lines_le
    have h1 := hone (by omega)
    rw [h1] at hread
    simp at hread
    omega
  · rintro s rfl
    refine skip_par.bind ?_
    rintro r hr
    refine Out.Par.ok.2 ⟨s, rfl, ?_⟩
    rw [hr]
    simp only
    rw [← hr1.drop_eq]
    exact ht

/-! ### Plain scalars are accepted -/

/-- There is no error. -/
def Out.NoErr {ε α : Type} (x : Out ε α) : Prop := ∀ e, x ≠ .err e

namespace Out.NoErr
variable {ε α β : Type}

theorem ok {a : α} : NoErr (ε := ε) (.ok a) := fun _ h => by cases h
theorem panic : NoErr (ε := ε) (α := α) .panic := fun _ h => by cases h
theorem diverge : NoErr (ε := ε) (α := α) .diverge := fun _ h => by cases h

theorem bind {x : Out ε α} {f : α → Out ε β} (h : NoErr x) (hf : ∀ a, NoErr (f a)) : NoErr (x >>= f) := by
  cases x with
  | ok a => exact hf a
  | err e => exact absurd rfl (h e)
  | panic => exact .panic
  | diverge => exact .diverge

end Out.NoErr

open Out (NoErr)

theorem adv_noErr {n : Nat} : NoErr (c.adv n) := by unfold Cur.adv; split <;> first | exact .ok | exact .panic
theorem line_noErr : NoErr c.line := by unfold Cur.line; split <;> first | exact .ok | exact .panic
theorem skip_noErr {n : Nat} : NoErr (c.skip n) := by unfold Cur.skip; split <;> first | exact .ok | exact .panic
theorem slice_noErr {s : Str} {a b : Nat} : NoErr (ε := ScanError) (slice s a b) := by unfold slice; split <;> first | exact .ok | exact .panic
theorem truncEnd_noErr {s : Str} {n : Nat} : NoErr (truncEnd s n) := by unfold truncEnd; split <;> first | exact .ok | exact .panic
theorem fromUtf8_noErr {s : Str} : NoErr (ε := ScanError) (fromUtf8Unwrap s) := by unfold fromUtf8Unwrap; split <;> first | exact .ok | exact .panic

theorem PlainSt.push_noErr {st : PlainSt} : NoErr st.push := adv_noErr.bind fun _ => .ok

theorem PlainSt.noBorrow_noErr {base : Str} {st : PlainSt} : NoErr (st.noBorrow base) := by
  unfold PlainSt.noBorrow
  split
  · exact slice_noErr.bind fun _ => .ok
  · exact .ok

theorem cache_noErr (hx : opts.extendable = false) {n : Nat} {s : Str} : NoErr (cache opts n s) := by
  rw [cache_whole opts hx]; exact .ok

theorem plainWord_noErr (hx : opts.extendable = false) {fuel : Nat} {st : PlainSt} : NoErr (plainWord opts block fuel st) := by
  induction fuel generalizing st with
  | zero => exact .diverge
  | succ fuel ih =>
    rw [plainWord]
    split
    · exact .ok
    · refine (cache_noErr hx).bind fun _ => ?_
      split
      · exact .ok
      · exact PlainSt.push_noErr.bind fun _ => ih

theorem plainSpace_noErr (hx : opts.extendable = false) {fuel : Nat} {base : Str} {st : PlainSt} : NoErr (plainSpace opts base fuel st) := by
  induction fuel generalizing st with
  | zero => exact .diverge
  | succ fuel ih =>
    rw [plainSpace]
    refine (cache_noErr hx).bind fun _ => ?_
    split
    · exact PlainSt.push_noErr.bind fun _ => ih
    · split
      · exact PlainSt.noBorrow_noErr.bind fun _ => line_noErr.bind fun _ => ih
      · exact .ok

theorem plainJoin_noErr {st : PlainSt} : NoErr (plainJoin st) := by
  unfold plainJoin
  split
  · exact .ok
  · exact truncEnd_noErr.bind fun _ => .ok
  · exact truncEnd_noErr.bind fun _ => .ok

theorem plainLoop_noErr (hx : opts.extendable = false) {fuel : Nat} {base : Str} {st : PlainSt} :
    NoErr (plainLoop opts base indent block fuel st) := by
  induction fuel generalizing st with
  | zero => exact .diverge
  | succ fuel ih =>
    rw [plainLoop]
    refine (cache_noErr hx).bind fun _ => ?_
    split
    · exact .ok
    split
    · exact .ok
    split
    · exact .ok
    split
    · exact .ok
    exact (plainWord_noErr hx).bind fun _ => (plainSpace_noErr hx).bind fun _ => plainJoin_noErr.bind fun _ => ih

/-- In an ASCII text, a plain scalar is always scanned. -/
theorem scanPlainEager_ok (hx : opts.extendable = false) (hA : Ascii c.buf) (hst : PlainStart block c)
    (hb : plainBadStart block c.buf = false) :
    ∃ v r, scanPlainEager opts indent block c = .ok (.Scalar v .Plain, r) ∧ PlainText block indent c.stats c.buf v r.buf := by
  have h1 : NoErr (scanPlainEager opts indent block c) := by
    rw [scanPlainEager_eq]
    refine (cache_noErr hx).bind fun _ => ?_
    rw [if_neg (by simp [hb])]
    refine (plainLoop_noErr hx).bind fun _ => ?_
    refine NoErr.bind ?_ fun _ => skip_noErr.bind fun _ => .ok
    unfold plainSlice
    split
    · exact slice_noErr
    · exact truncEnd_noErr.bind fun _ => fromUtf8_noErr
  have h2 := scanPlainEager_sat (P := False) (opts := opts) (indent := indent) (.inr hA) hst
  cases h : scanPlainEager opts indent block c with
  | ok x =>
    obtain ⟨v, e, ht⟩ := scanPlainEager_par hst _ h
    exact ⟨v, x.2, by rw [← e], ht⟩
  | err e => exact absurd h (h1 e)
  | panic => rw [h] at h2; exact h2.elim
  | diverge => rw [h] at h2; exact h2.elim

end Yary
