import Verif.Spec.BlockForm
import Verif.Proof.Scan.BlockText
import Verif.Proof.Scan.Means

/-! # Block scalars: the texts that are accepted -/

namespace Yary.Blocks

open Spec

variable {opts : SFlags}

/-- Bytes were read from `c` to `c'`. -/
def Took (c c' : Cur) (p : Str) : Prop := c.buf = p ++ c'.buf ∧ c'.stats.read = c.stats.read + p.length

theorem Took.refl (c : Cur) : Took c c [] := ⟨rfl, rfl⟩

theorem Took.trans {a b c : Cur} {p q : Str} (h : Took a b p) (h' : Took b c q) : Took a c (p ++ q) :=
  ⟨by rw [h.1, h'.1, List.append_assoc], by rw [h'.2, h.2, List.length_append]; omega⟩

theorem adv_took {c c' : Cur} {b : Byte} {t : Str} (hc : c.buf = b :: t) (h : c.adv 1 = .ok c') :
    Took c c' [b] ∧ c'.buf = t ∧ c'.stats.column = c.stats.column + 1 := by
  have := adv_par _ h
  subst this
  refine ⟨⟨?_, ?_⟩, ?_, ?_⟩ <;> simp [hc, MStats.update]

theorem line_took {c c' : Cur} (hb : isBreak c.buf = true) (h : c.line = .ok c') :
    ∃ w t, BreakBefore w t ∧ c.buf = w ++ t ∧ c'.buf = t ∧ Took c c' w ∧ c'.stats.column = 0 := by
  obtain ⟨w, t, h1, h2, h3⟩ := break_split hb
  have := line_par _ h
  subst this
  have h4 : breakLen c.buf = w.length := by rw [h1]; exact breakLen_before h2
  refine ⟨w, t, h2, h1, h3, ⟨?_, ?_⟩, ?_⟩
  · simp only; rw [h3]; exact h1
  · simp [MStats.update, h4]
  · simp [MStats.update]

theorem not_white {s : Str} (h : isWhiteSpace s = false) : ¬ White s := by
  rintro (⟨t, rfl | rfl⟩ | hb)
  · simp [isWhiteSpace, isBlank, startsWith] at h
  · simp [isWhiteSpace, isBlank, startsWith] at h
  · simp [isWhiteSpace, atBreak_iff.1 hb] at h

theorem blank_cases {s : Str} (h : isBlank s = true) : ∃ b t, s = b :: t ∧ (b = 0x20 ∨ b = 0x09) := by
  cases s with
  | nil => cases h
  | cons b t => exact ⟨b, t, rfl, by simpa [isBlank, startsWith] using h⟩

/-! ### The header -/

theorem skipBlanksLoop_means {fuel : Nat} {c c' : Cur} (h : skipBlanksLoop opts fuel c = .ok c') :
    ∃ bl, Took c c' bl ∧ (∀ x ∈ bl, x = 0x20 ∨ x = 0x09) ∧ isBlank c'.buf = false := by
  induction fuel generalizing c with
  | zero => cases h
  | succ fuel ih =>
    rw [skipBlanksLoop] at h
    split at h
    · rename_i hb
      obtain ⟨b, t, hc, hb⟩ := blank_cases hb
      obtain ⟨_, -, h⟩ := Out.bind_eq_ok.1 h
      obtain ⟨c1, h1, h⟩ := Out.bind_eq_ok.1 h
      obtain ⟨bl, h2, h3, h4⟩ := ih h
      refine ⟨b :: bl, (adv_took hc h1).1.trans h2, ?_, h4⟩
      intro x hx
      rcases List.mem_cons.1 hx with rfl | hx
      · exact hb
      · exact h3 x hx
    · rename_i hb
      cases h
      exact ⟨[], .refl _, by simp, by simpa using hb⟩

theorem RestOfLine.cons {b : Byte} {l t : Str} (hb : isBreak (b :: (l ++ t)) = false) (h : RestOfLine l t) : RestOfLine (b :: l) t := by
  refine ⟨fun i hi => ?_, h.2⟩
  cases i with
  | zero => rw [atBreak_iff]; simp [hb]
  | succ i => exact h.1 i (by simpa using hi)

theorem toBreak_means {fuel : Nat} {c c' : Cur} (h : toBreak opts fuel c = .ok c') :
    ∃ l, Took c c' l ∧ RestOfLine l c'.buf ∧ c'.stats.column = c.stats.column + l.length := by
  induction fuel generalizing c with
  | zero => cases h
  | succ fuel ih =>
    rw [toBreak] at h
    split at h
    · rename_i hb
      cases h
      refine ⟨[], .refl _, ⟨fun i hi => by simp at hi, ?_⟩, rfl⟩
      simp only [isBreakZ, Bool.or_eq_true, List.isEmpty_iff] at hb
      rcases hb with hb | hb
      · exact .inr (atBreak_iff.2 hb)
      · exact .inl hb
    · rename_i hb
      simp only [isBreakZ, Bool.or_eq_true, List.isEmpty_iff, not_or, Bool.not_eq_true] at hb
      obtain ⟨b, t, hc⟩ := List.exists_cons_of_ne_nil hb.2
      obtain ⟨_, -, h⟩ := Out.bind_eq_ok.1 h
      obtain ⟨c1, h1, h⟩ := Out.bind_eq_ok.1 h
      obtain ⟨l, h2, h3, h4⟩ := ih h
      obtain ⟨g1, g2, g3⟩ := adv_took hc h1
      refine ⟨b :: l, g1.trans h2, RestOfLine.cons ?_ h3, ?_⟩
      · rw [← h2.1, g2, ← hc]
        exact hb.1
      · rw [h4, g3, List.length_cons]
        omega

/-- The rest of the header line. -/
def headerTail (opts : SFlags) (c : Cur) : Out ScanError Cur := do
  let c ← skipBlanks opts c
  cache opts 1 c.buf
  if !isWhiteSpaceZ c.buf then .err .InvalidBlockScalar else c.line

theorem headerTail_means {c c' : Cur} (h : headerTail opts c = .ok c') :
    ∃ bl cm b, Took c c' (bl ++ (cm ++ b)) ∧ (∀ x ∈ bl, x = 0x20 ∨ x = 0x09) ∧
      (cm = [] ∨ ∃ l, cm = b! '#' :: l ∧ RestOfLine l (b ++ c'.buf)) ∧ (b = [] ∧ c'.buf = [] ∨ BreakBefore b c'.buf) ∧ c'.stats.column = 0 := by
  unfold headerTail skipBlanks at h
  obtain ⟨c2, h2, h⟩ := Out.bind_eq_ok.1 h
  obtain ⟨_, -, h2⟩ := Out.bind_eq_ok.1 h2
  obtain ⟨c1, h1, h2⟩ := Out.bind_eq_ok.1 h2
  obtain ⟨_, -, h⟩ := Out.bind_eq_ok.1 h
  obtain ⟨bl, g1, g2, g3⟩ := skipBlanksLoop_means h1
  -- the comment
  obtain ⟨cm, k1, k2, k3⟩ : ∃ cm, Took c1 c2 cm ∧ (cm = [] ∨ ∃ l, cm = b! '#' :: l ∧ RestOfLine l c2.buf) ∧ isBlank c2.buf = false := by
    split at h2
    · rename_i hs
      obtain ⟨t, ht⟩ : ∃ t, c1.buf = b! '#' :: t := by
        cases hb : c1.buf with
        | nil => rw [hb] at hs; cases hs
        | cons b t => rw [hb] at hs; simp [startsWith] at hs; exact ⟨t, by rw [hs]⟩
      obtain ⟨l, f1, f2, -⟩ := toBreak_means h2
      have hbl : isBlank c2.buf = false := by
        rcases f2.2 with h0 | h0
        · rw [h0]; rfl
        · rw [atBreak_iff] at h0
          cases hbk : isBlank c2.buf with
          | false => rfl
          | true =>
            obtain ⟨b, u, hb, rfl | rfl⟩ := blank_cases hbk <;> rw [hb] at h0 <;> simp [isBreak] at h0
      cases l with
      | nil =>
        exfalso
        have h0 := f1.1
        rw [ht] at h0
        rcases f2.2 with h1 | h1
        · rw [h1] at h0; cases h0
        · rw [atBreak_iff, ← List.nil_append c2.buf, ← h0] at h1
          simp [isBreak] at h1
      | cons x l =>
        have h0 := f1.1
        rw [ht, List.cons_append] at h0
        obtain ⟨rfl, -⟩ := List.cons.inj h0
        exact ⟨_, f1, .inr ⟨l, rfl, fun i hi => f2.1 (i + 1) (by simpa using hi), f2.2⟩, hbl⟩
    · cases h2
      exact ⟨[], .refl _, .inl rfl, g3⟩
  split at h
  · cases h
  · rename_i hw
    simp only [isWhiteSpaceZ, k3, Bool.false_or, Bool.not_or, Bool.and_eq_true, Bool.not_eq_true', not_and, Bool.not_eq_false] at hw
    cases hb : isBreak c2.buf with
    | true =>
      obtain ⟨w, t, f1, f2, rfl, f4, f5⟩ := line_took hb h
      refine ⟨bl, cm, w, g1.trans (k1.trans f4), g2, ?_, .inr f1, f5⟩
      rwa [← f4.1]
    | false =>
      have hnil : c2.buf = [] := by simpa using hw hb
      have hlen : breakLen c2.buf = 0 := breakLen_zero hb
      have := line_par _ h
      subst this
      refine ⟨bl, cm, [], ?_, g2, ?_, .inl ⟨rfl, by simp [hnil]⟩, by simp [MStats.update]⟩
      · have : Took c2 ⟨c2.buf.drop (breakLen c2.buf), c2.stats.update (breakLen c2.buf) 1 0⟩ [] := by
          rw [hlen]
          exact ⟨by simp, by simp [MStats.update]⟩
        exact g1.trans (k1.trans this)
      · simpa [hnil] using k2

/-- What the digit means. -/
def explicitOf (d : Option Byte) : Option Nat := d.bind fun i => if i = b! '0' then none else some (i - b! '0')

/-- Another indicator is not the rest of the header. -/
theorem headerTail_not {x : Byte} {t : Str} {m : MStats} {c' : Cur} (hx : isDigit x = true ∨ x = b! '+' ∨ x = b! '-') :
    headerTail opts ⟨x :: t, m⟩ ≠ .ok c' := by
  intro h
  have hne : x ≠ 0x20 ∧ x ≠ 0x09 ∧ x ≠ b! '#' ∧ NoBrk x := by
    rcases hx with hx | rfl | rfl
    · simp only [isDigit, Bool.and_eq_true, decide_eq_true_eq] at hx
      obtain ⟨h1, h2⟩ := hx
      refine ⟨?_, ?_, ?_, ?_⟩
      · rintro rfl; revert h1; decide
      · rintro rfl; revert h1; decide
      · rintro rfl; revert h1; decide
      · unfold NoBrk
        byte_omega
    · decide
    · decide
  obtain ⟨bl, cm, b, ⟨g1, -⟩, g2, g3, g4, -⟩ := headerTail_means h
  simp only at g1
  cases bl with
  | cons y bl =>
    obtain ⟨rfl, -⟩ := List.cons.inj g1
    rcases g2 x (by simp) with h | h
    · exact hne.1 h
    · exact hne.2.1 h
  | nil =>
    rcases g3 with rfl | ⟨l, rfl, -⟩
    · rcases g4 with ⟨rfl, h⟩ | h
      · rw [h] at g1; cases g1
      · have h := before_at h
        simp only [List.nil_append] at g1
        rw [atBreak_iff, ← g1, hne.2.2.2.isBreak] at h
        cases h
    · obtain ⟨h, -⟩ := List.cons.inj g1
      exact hne.2.2.1 h

theorem blockHeader_tail {c : Cur} {x : ChompStyle × Option Nat × Cur} (h : blockHeader opts c = .ok x) :
    ∃ c1 c2, c.adv 1 = .ok c1 ∧ scanHeaders opts c1 = .ok (x.1, x.2.1, c2) ∧ headerTail opts c2 = .ok x.2.2 := by
  unfold blockHeader at h
  obtain ⟨_, -, h⟩ := Out.bind_eq_ok.1 h
  obtain ⟨c1, h1, h⟩ := Out.bind_eq_ok.1 h
  obtain ⟨⟨ch, ex, c2⟩, h2, h⟩ := Out.bind_eq_ok.1 h
  obtain ⟨c3, h3, h⟩ := Out.bind_eq_ok.1 h
  obtain ⟨_, h4, h⟩ := Out.bind_eq_ok.1 h
  split at h
  · cases h
  · rename_i hw
    obtain ⟨c4, h5, h⟩ := Out.bind_eq_ok.1 h
    cases h
    refine ⟨c1, c2, h1, h2, ?_⟩
    unfold headerTail
    rw [h3, Out.ok_bind, h4, Out.ok_bind, if_neg hw, h5]

theorem signs_not_digits : isDigit (b! '+') = false ∧ isDigit (b! '-') = false := by decide

/-- The indicators. -/
theorem scanHeaders_marks {c c2 : Cur} {ch : ChompStyle} {ex : Option Nat} (h : scanHeaders opts c = .ok (ch, ex, c2))
    (hrej : ∀ x t, c2.buf = x :: t → ¬ (isDigit x = true ∨ x = b! '+' ∨ x = b! '-')) :
    ∃ w k d, Took c c2 w ∧ Marks w k d ∧ ch = chompStyle k ∧ ex = explicitOf d := by
  have hadv : ∀ {n : Nat} {x : Cur}, c.adv n = .ok x → ∀ w t, c.buf = w ++ t → w.length = n → Took c x w ∧ x.buf = t := by
    intro n x hx w t hb hn
    have := adv_par _ hx
    subst this
    refine ⟨⟨?_, ?_⟩, ?_⟩ <;> simp [hb, ← hn, MStats.update]
  unfold scanHeaders at h
  obtain ⟨_, -, h⟩ := Out.bind_eq_ok.1 h
  obtain ⟨c', h1, h⟩ := Out.bind_eq_ok.1 h
  simp only [Out.ok.injEq, Prod.mk.injEq] at h
  obtain ⟨rfl, rfl, rfl⟩ := h
  have dnone : ∀ x ∈ (none : Option Byte), IsDigit x := by simp
  have dsome : ∀ {y : Byte}, isDigit y = true → ∀ x ∈ some y, IsDigit x := by
    rintro y hy x ⟨⟩
    exact isDigit_iff.1 hy
  cases hb : c.buf with
  | nil =>
    simp only [hb, headerDigit, headerHas, startsWith, List.head?_nil, List.drop_nil] at h1 ⊢
    exact ⟨[], .clip, none, (hadv h1 [] [] (by simp [hb]) rfl).1, ⟨.inl rfl, dnone⟩, rfl, rfl⟩
  | cons a u =>
    by_cases ha : isDigit a = true
    · -- a digit
      have hd : headerDigit (a :: u) = some a := by simp [headerDigit, ha]
      have ha1 : a ≠ b! '+' := by rintro rfl; rw [signs_not_digits.1] at ha; cases ha
      have ha2 : a ≠ b! '-' := by rintro rfl; rw [signs_not_digits.2] at ha; cases ha
      cases u with
      | nil =>
        simp only [hb, hd, headerHas, startsWith, List.head?_cons, List.drop_succ_cons, List.drop_nil, List.head?_nil, Option.isSome_some, ↓reduceIte] at h1 ⊢
        simp only [Option.some_beq_some, beq_eq_false_iff_ne.2 ha1, beq_eq_false_iff_ne.2 ha2, Option.none_beq_some, Bool.or_self, Bool.false_eq_true, ↓reduceIte] at h1 ⊢
        exact ⟨[a], .clip, some a, (hadv h1 [a] [] (by simp [hb]) rfl).1, ⟨.inl rfl, dsome ha⟩, rfl, rfl⟩
      | cons b t =>
        simp only [hb, hd, headerHas, startsWith, List.head?_cons, List.drop_succ_cons, List.drop_zero, Option.isSome_some, ↓reduceIte] at h1 ⊢
        simp only [Option.some_beq_some, beq_eq_false_iff_ne.2 ha1, beq_eq_false_iff_ne.2 ha2, Bool.false_or, beq_iff_eq] at h1 ⊢
        by_cases hp : b = b! '+'
        · subst hp
          simp only [↓reduceIte, reduceCtorEq] at h1 ⊢
          exact ⟨[a, b! '+'], .keep, some a, (hadv h1 _ t (by simp [hb]) rfl).1, ⟨.inr rfl, dsome ha⟩, rfl, rfl⟩
        · by_cases hm : b = b! '-'
          · subst hm
            have : ¬ (b! '-' = b! '+') := by decide
            simp only [this, ↓reduceIte, reduceCtorEq] at h1 ⊢
            exact ⟨[a, b! '-'], .strip, some a, (hadv h1 _ t (by simp [hb]) rfl).1, ⟨.inr rfl, dsome ha⟩, rfl, rfl⟩
          · simp only [hp, hm, ↓reduceIte] at h1 ⊢
            exact ⟨[a], .clip, some a, (hadv h1 [a] (b :: t) (by simp [hb]) rfl).1, ⟨.inl rfl, dsome ha⟩, rfl, rfl⟩
    · simp only [Bool.not_eq_true] at ha
      cases u with
      | nil =>
        have hd : headerDigit [a] = none := by simp [headerDigit, ha]
        simp only [hb, hd, headerHas, startsWith, List.head?_cons, List.drop_succ_cons, List.drop_nil, List.head?_nil, Option.isSome_none, Bool.false_eq_true,
          ↓reduceIte] at h1 ⊢
        simp only [Option.some_beq_some, Option.none_beq_some, Bool.or_false, beq_iff_eq] at h1 ⊢
        by_cases hp : a = b! '+'
        · subst hp
          simp only [↓reduceIte, reduceCtorEq] at h1 ⊢
          exact ⟨[b! '+'], .keep, none, (hadv h1 _ [] (by simp [hb]) rfl).1, ⟨.inl rfl, dnone⟩, rfl, rfl⟩
        · by_cases hm : a = b! '-'
          · subst hm
            have : ¬ (b! '-' = b! '+') := by decide
            simp only [this, ↓reduceIte, reduceCtorEq] at h1 ⊢
            exact ⟨[b! '-'], .strip, none, (hadv h1 _ [] (by simp [hb]) rfl).1, ⟨.inl rfl, dnone⟩, rfl, rfl⟩
          · simp only [hp, hm, ↓reduceIte] at h1 ⊢
            exact ⟨[], .clip, none, (hadv h1 [] [a] (by simp [hb]) rfl).1, ⟨.inl rfl, dnone⟩, rfl, rfl⟩
      | cons b t =>
        have hd : headerDigit (a :: b :: t) = if isDigit b then some b else none := by simp [headerDigit, ha]
        simp only [hb, hd, headerHas, startsWith, List.head?_cons, List.drop_succ_cons, List.drop_zero] at h1 ⊢
        simp only [Option.some_beq_some, Bool.or_eq_true, beq_iff_eq] at h1 ⊢
        by_cases hp : a = b! '+'
        · subst hp
          by_cases hbd : isDigit b = true
          · simp only [hbd, ↓reduceIte, true_or, Option.isSome_some, reduceCtorEq] at h1 ⊢
            exact ⟨[b! '+', b], .keep, some b, (hadv h1 _ t (by simp [hb]) rfl).1, ⟨.inl rfl, dsome hbd⟩, rfl, rfl⟩
          · simp only [hbd, ↓reduceIte, true_or, Option.isSome_none, reduceCtorEq, Bool.false_eq_true] at h1 ⊢
            exact ⟨[b! '+'], .keep, none, (hadv h1 _ (b :: t) (by simp [hb]) rfl).1, ⟨.inl rfl, dnone⟩, rfl, rfl⟩
        · by_cases hm : a = b! '-'
          · subst hm
            have hmp : ¬ (b! '-' = b! '+') := by decide
            by_cases hbd : isDigit b = true
            · have hbp : b ≠ b! '+' := by rintro rfl; rw [signs_not_digits.1] at hbd; cases hbd
              simp only [hbd, ↓reduceIte, hmp, hbp, or_self, true_or, Option.isSome_some, reduceCtorEq] at h1 ⊢
              exact ⟨[b! '-', b], .strip, some b, (hadv h1 _ t (by simp [hb]) rfl).1, ⟨.inl rfl, dsome hbd⟩, rfl, rfl⟩
            · by_cases hbp : b = b! '+'
              · exfalso
                subst hbp
                simp only [hbd, ↓reduceIte, or_true, Option.isSome_none, reduceCtorEq, Bool.false_eq_true] at h1
                exact hrej _ t (hadv h1 [b! '-'] _ (by simp [hb]) rfl).2 (.inr (.inl rfl))
              · simp only [hbd, ↓reduceIte, hmp, hbp, or_self, true_or, Option.isSome_none, reduceCtorEq, Bool.false_eq_true] at h1 ⊢
                exact ⟨[b! '-'], .strip, none, (hadv h1 _ (b :: t) (by simp [hb]) rfl).1, ⟨.inl rfl, dnone⟩, rfl, rfl⟩
          · -- no indicator: the next one must not be one either
            by_cases hbd : isDigit b = true
            · exfalso
              have hbp : b ≠ b! '+' := by rintro rfl; rw [signs_not_digits.1] at hbd; cases hbd
              have hbm : b ≠ b! '-' := by rintro rfl; rw [signs_not_digits.2] at hbd; cases hbd
              simp only [hbd, ↓reduceIte, hp, hm, hbp, hbm, or_self, Option.isSome_some] at h1
              exact hrej b t (hadv h1 [a] _ (by simp [hb]) rfl).2 (.inl hbd)
            · by_cases hbp : b = b! '+'
              · exfalso
                subst hbp
                simp only [hbd, ↓reduceIte, or_true, Option.isSome_none, reduceCtorEq, Bool.false_eq_true] at h1
                exact hrej _ t (hadv h1 [a] _ (by simp [hb]) rfl).2 (.inr (.inl rfl))
              · by_cases hbm : b = b! '-'
                · exfalso
                  subst hbm
                  have hmp : ¬ (b! '-' = b! '+') := by decide
                  simp only [hbd, ↓reduceIte, hp, hmp, or_self, or_true, Option.isSome_none, reduceCtorEq, Bool.false_eq_true] at h1
                  exact hrej _ t (hadv h1 [a] _ (by simp [hb]) rfl).2 (.inr (.inr rfl))
                · simp only [hbd, ↓reduceIte, hp, hm, hbp, hbm, or_self, Option.isSome_none, Bool.false_eq_true] at h1 ⊢
                  exact ⟨[], .clip, none, (hadv h1 [] (a :: b :: t) (by simp [hb]) rfl).1, ⟨.inl rfl, dnone⟩, rfl, rfl⟩

theorem scanHeaders_means {c c2 c3 : Cur} {ch : ChompStyle} {ex : Option Nat} (h : scanHeaders opts c = .ok (ch, ex, c2)) (ht : headerTail opts c2 = .ok c3) :
    ∃ w k d, Took c c2 w ∧ Marks w k d ∧ ch = chompStyle k ∧ ex = explicitOf d := by
  refine scanHeaders_marks h fun x t hb hx => ?_
  obtain ⟨b, m⟩ := c2
  simp only at hb
  subst hb
  exact headerTail_not hx ht

theorem blockHeader_means {c c' : Cur} {ch : ChompStyle} {ex : Option Nat} {b : Byte} {s : Str} (hc : c.buf = b :: s)
    (h : blockHeader opts c = .ok (ch, ex, c')) :
    ∃ k d p, HeaderText s k d c'.buf ∧ ch = chompStyle k ∧ ex = explicitOf d ∧ Took c c' p ∧ p ≠ [] ∧ c'.stats.column = 0 := by
  obtain ⟨c1, c2, h1, h2, h3⟩ := blockHeader_tail h
  obtain ⟨g1, g2, -⟩ := adv_took hc h1
  obtain ⟨w, k, d, f1, f2, f3, f4⟩ := scanHeaders_means h2 h3
  obtain ⟨bl, cm, b', e1, e2, e3, e4, e5⟩ := headerTail_means h3
  refine ⟨k, d, _, ⟨w, bl, cm, b', ?_, f2, e2, e3, e4⟩, f3, f4, g1.trans (f1.trans e1), by simp, e5⟩
  rw [← g2, f1.1, e1.1]
  simp [List.append_assoc]

/-! ### The lines -/

theorem scanIndentLoop_means {n fuel l l' : Nat} {c c' : Cur} (hc : c.stats.column ≤ n) (h : scanIndentLoop opts n fuel c l = .ok (c', l')) :
    ∃ e p, l' = l + e ∧ Margin n c.stats.column c.buf e c'.stats.column c'.buf ∧ Took c c' p := by
  induction fuel generalizing c l with
  | zero => cases h
  | succ fuel ih =>
    rw [scanIndentLoop] at h
    split at h
    · rename_i hw
      simp only [Bool.and_eq_true, decide_eq_true_eq] at hw
      split at h
      · rename_i hs
        obtain ⟨t, ht⟩ : ∃ t, c.buf = 0x20 :: t := by
          cases hb : c.buf with
          | nil => rw [hb] at hs; cases hs
          | cons b t => rw [hb] at hs; simp [startsWith] at hs; exact ⟨t, by rw [hs]⟩
        obtain ⟨c1, h1, h⟩ := Out.bind_eq_ok.1 h
        obtain ⟨_, -, h⟩ := Out.bind_eq_ok.1 h
        obtain ⟨g1, g2, g3⟩ := adv_took ht h1
        obtain ⟨e, p, f1, f2, f3⟩ := ih (by omega) h
        refine ⟨e, _, f1, ?_, g1.trans f3⟩
        rw [ht]
        rw [g2, g3] at f2
        exact .space hw.1 f2
      · split at h
        · cases h
        · rename_i hs ht
          have hbl : isBlank c.buf = false := by simp only [Bool.not_eq_true] at hs ht; simp [isBlank, hs, ht]
          have hb : isBreak c.buf = true := by simpa [isWhiteSpace, hbl] using hw.2
          obtain ⟨c1, h1, h⟩ := Out.bind_eq_ok.1 h
          obtain ⟨_, -, h⟩ := Out.bind_eq_ok.1 h
          obtain ⟨w, t, k1, k2, k3, k4, k5⟩ := line_took hb h1
          obtain ⟨e, p, f1, f2, f3⟩ := ih (by omega) h
          refine ⟨e + 1, _, by omega, ?_, k4.trans f3⟩
          rw [k2]
          rw [k3, k5] at f2
          exact .line hw.1 k1 f2
    · rename_i hw
      simp only [Out.ok.injEq, Prod.mk.injEq] at h
      obtain ⟨rfl, rfl⟩ := h
      refine ⟨0, [], rfl, .done ?_, .refl _⟩
      simp only [Bool.and_eq_true, decide_eq_true_eq, not_and, Bool.not_eq_true] at hw
      rcases Nat.lt_or_ge c.stats.column n with hlt | hge
      · exact .inr ⟨hlt, not_white (hw hlt)⟩
      · exact .inl (by omega)

/-- One line, with what comes before the next one. -/
theorem line_means {n fuel k1 k : Nat} {c c1 c2 c3 : Cur} (hn : 0 < n) (hc : c.stats.column = n) (h1 : toBreak opts fuel c = .ok c1)
    (h2 : eatBreak opts c1 0 = .ok (c2, k1)) (h3 : scanIndent opts n c2 k1 = .ok (c3, k)) :
    ∃ l p, Took c c1 l ∧ Took c1 c3 p ∧
      (c1.buf = [] ∧ RestOfLine l [] ∧ c3.buf = [] ∧ k = 0 ∨
        ∃ w t e, c1.buf = w ++ t ∧ RestOfLine l (w ++ t) ∧ BreakBefore w t ∧ Margin n 0 t e c3.stats.column c3.buf ∧ k = e + 1) := by
  obtain ⟨l, g1, g2, g3⟩ := toBreak_means h1
  unfold eatBreak at h2
  obtain ⟨_, -, h2⟩ := Out.bind_eq_ok.1 h2
  split at h2
  · rename_i hb
    obtain ⟨c2', h4, h2⟩ := Out.bind_eq_ok.1 h2
    cases h2
    obtain ⟨w, t, f1, f2, f3, f4, f5⟩ := line_took hb h4
    unfold scanIndent at h3
    rw [if_neg (by omega)] at h3
    obtain ⟨_, -, h3⟩ := Out.bind_eq_ok.1 h3
    obtain ⟨e, p, e1, e2, e3⟩ := scanIndentLoop_means (by omega) h3
    refine ⟨l, _, g1, f4.trans e3, .inr ⟨w, t, e, f2, f2 ▸ g2, f1, ?_, by omega⟩⟩
    rwa [f3, f5] at e2
  · rename_i hb
    cases h2
    have hnil : c1.buf = [] := by
      rcases g2.2 with h | h
      · exact h
      · exact absurd (atBreak_iff.1 h) hb
    unfold scanIndent at h3
    rw [if_pos (by omega)] at h3
    cases h3
    exact ⟨l, [], g1, .refl _, .inl ⟨hnil, hnil ▸ g2, hnil, rfl⟩⟩

/-- The state of the loop, when copying. -/
def copying (c : Cur) (v : Str) (s p k : Nat) : BlockSt := ⟨c, v, false, s, p, k⟩

theorem blockLoop_step {base : Str} {read : Nat} {fold : Bool} {n fuel : Nat} {st st1 st' : BlockSt} (hc : st.cur.stats.column = n) (hne : st.cur.buf ≠ [])
    (ht : st.trapdoor base = .ok st1) (h : blockLoop opts base read fold n (fuel + 1) st = .ok st') :
    ∃ c1 c2 c3 k1 k2, toBreak opts (base.length + 1) st1.cur = .ok c1 ∧ eatBreak opts c1 0 = .ok (c2, k1) ∧ scanIndent opts n c2 k1 = .ok (c3, k2) ∧
      blockLoop opts base read fold n fuel ⟨c3,
        if st1.canBorrow then st1.scratch ++ blockJoin fold st1.lines
          else st1.scratch ++ blockJoin fold st1.lines ++ st1.cur.buf.take (st1.cur.buf.length - c1.buf.length), st1.canBorrow,
        if st1.canBorrow then (if st1.start = 0 then st1.cur.stats.read - read else st1.start) else 0,
        if st1.canBorrow then c1.stats.read - read
          else (st1.scratch ++ blockJoin fold st1.lines ++ st1.cur.buf.take (st1.cur.buf.length - c1.buf.length)).length, k2⟩ = .ok st' := by
  rw [blockLoop, if_pos (by simp [hc, hne]), ht, Out.ok_bind] at h
  obtain ⟨_, -, h⟩ := Out.bind_eq_ok.1 h
  obtain ⟨c1, h1, h⟩ := Out.bind_eq_ok.1 h
  obtain ⟨⟨c2, k1⟩, h2, h⟩ := Out.bind_eq_ok.1 h
  obtain ⟨⟨c3, k2⟩, h3, h⟩ := Out.bind_eq_ok.1 h
  refine ⟨c1, c2, c3, k1, k2, h1, h2, h3, ?_⟩
  rw [← h]
  cases st1.canBorrow <;> rfl

theorem blockLoop_stop {base : Str} {read : Nat} {fold : Bool} {n fuel : Nat} {st st' : BlockSt} (hc : st.cur.stats.column ≠ n ∨ st.cur.buf = [])
    (h : blockLoop opts base read fold n fuel st = .ok st') : st' = st := by
  cases fuel with
  | zero => cases h
  | succ fuel =>
    rw [blockLoop, if_neg (by
      rcases hc with hc | hc
      · simp [hc]
      · simp [hc])] at h
    cases h
    rfl

/-- The lines, when copying. -/
theorem blockLoop_lines {base : Str} {read : Nat} {fold : Bool} {n fuel : Nat} {c : Cur} {v : Str} {s p k : Nat} {st' : BlockSt} (hn : 0 < n)
    (hc : c.stats.column = n) (hne : c.buf ≠ []) (h : blockLoop opts base read fold n fuel (copying c v s p k) = .ok st') :
    ∃ l ls m, LinesText n c.buf l ls m st'.cur.buf ∧
      st' = copying st'.cur (v ++ blockJoin fold k ++ (l ++ joined fold ls)) 0 (v ++ blockJoin fold k ++ (l ++ joined fold ls)).length m := by
  induction fuel generalizing c v s p k with
  | zero => cases h
  | succ fuel ih =>
    obtain ⟨c1, c2, c3, k1, k2, h1, h2, h3, h⟩ := blockLoop_step (st1 := copying c v s p k) hc hne (by simp [BlockSt.trapdoor, copying]) h
    simp only [copying, Bool.false_eq_true, ↓reduceIte] at h1 h
    obtain ⟨l, q, g1, g2, g3⟩ := line_means hn hc h1 h2 h3
    have hl : c.buf.take (c.buf.length - c1.buf.length) = l := by rw [g1.1]; simp
    rw [hl] at h
    by_cases hs : c3.stats.column ≠ n ∨ c3.buf = []
    · -- the last one
      have := blockLoop_stop (by exact hs) h
      subst this
      refine ⟨l, [], k2, ?_, by simp [copying, joined, foldedLines, moreLines]⟩
      rcases g3 with ⟨e1, e2, e3, e4⟩ | ⟨w, t, e, e1, e2, e3, e4, e5⟩
      · rw [g1.1, e1, e3, e4, List.append_nil]
        refine .eof ?_ e2
        rintro rfl
        exact hne (by rw [g1.1, e1]; rfl)
      · rw [g1.1, e1, e5]
        exact .last e2 e3 e4 hs
    · simp only [not_or, ne_eq, Decidable.not_not] at hs
      obtain ⟨l', ls, m, f1, f2⟩ := ih (c := c3) hs.1 hs.2 h
      rcases g3 with ⟨e1, e2, e3, e4⟩ | ⟨w, t, e, e1, e2, e3, e4, e5⟩
      · exact absurd e3 hs.2
      · refine ⟨l, ⟨e, l'⟩ :: ls, m, ?_, ?_⟩
        · rw [g1.1, e1]
          rw [hs.1] at e4
          exact .more e2 e3 e4 f1
        · rw [f2, joined_cons, e5]
          simp only [copying, List.append_assoc]

/-- The lines, when borrowing. -/
theorem blockLoop_borrowed {base : Str} {read : Nat} {fold : Bool} {n fuel : Nat} {c : Cur} {pre : Str} {st' : BlockSt} (hn : 0 < n)
    (hc : c.stats.column = n) (hne : c.buf ≠ []) (hb : base = pre ++ c.buf) (hr : c.stats.read = read + pre.length) (hp : pre ≠ [])
    (h : blockLoop opts base read fold n fuel ⟨c, [], true, pre.length, 0, 0⟩ = .ok st') :
    ∃ l ls m u, LinesText n c.buf l ls m st'.cur.buf ∧ c.buf = l ++ u ∧
      (ls = [] ∧ (m = 0 ↔ u = []) ∧ st' = ⟨st'.cur, [], true, pre.length, pre.length + l.length, m⟩ ∨
        ls ≠ [] ∧ st' = copying st'.cur (l ++ joined fold ls) 0 (l ++ joined fold ls).length m) := by
  have hp0 : pre.length ≠ 0 := by simpa using hp
  cases fuel with
  | zero => cases h
  | succ fuel =>
    obtain ⟨c1, c2, c3, k1, k2, h1, h2, h3, h⟩ := blockLoop_step (st1 := ⟨c, [], true, pre.length, 0, 0⟩) hc hne (by simp [BlockSt.trapdoor]) h
    have hj : blockJoin fold 0 = [] := by cases fold <;> rfl
    simp only [↓reduceIte, hj, hp0, List.append_nil] at h1 h
    obtain ⟨l, q, g1, g2, g3⟩ := line_means hn hc h1 h2 h3
    have hstop : c1.stats.read - read = pre.length + l.length := by rw [g1.2]; omega
    rw [hstop] at h
    by_cases hs : c3.stats.column ≠ n ∨ c3.buf = []
    · have := blockLoop_stop (by exact hs) h
      subst this
      rcases g3 with ⟨e1, e2, e3, e4⟩ | ⟨w, t, e, e1, e2, e3, e4, e5⟩
      · refine ⟨l, [], k2, [], ?_, by rw [g1.1, e1], .inl ⟨rfl, by simp [e4], rfl⟩⟩
        rw [g1.1, e1, e3, e4, List.append_nil]
        refine .eof ?_ e2
        rintro rfl
        exact hne (by rw [g1.1, e1]; rfl)
      · refine ⟨l, [], k2, w ++ t, ?_, by rw [g1.1, e1], .inl ⟨rfl, ?_, rfl⟩⟩
        · rw [g1.1, e1, e5]
          exact .last e2 e3 e4 hs
        · obtain ⟨b, u, rfl, -⟩ := before_head e3
          simp [e5]
    · simp only [not_or, ne_eq, Decidable.not_not] at hs
      rcases g3 with ⟨e1, e2, e3, e4⟩ | ⟨w, t, e, e1, e2, e3, e4, e5⟩
      · exact absurd e3 hs.2
      cases fuel with
      | zero => cases h
      | succ fuel =>
        -- the trapdoor
        have htr : ∃ x, slice (ε := ScanError) base pre.length (pre.length + l.length) = .ok x := by
          rw [blockLoop, if_pos (by simp [hs.1, hs.2])] at h
          obtain ⟨st1, h4, -⟩ := Out.bind_eq_ok.1 h
          unfold BlockSt.trapdoor at h4
          rw [if_pos (by simp [e5])] at h4
          obtain ⟨x, h5, -⟩ := Out.bind_eq_ok.1 h4
          exact ⟨x, h5⟩
        obtain ⟨x, hx⟩ := htr
        have hxl : x = l := by
          have := slice_par _ hx
          rw [hb, g1.1, List.drop_left] at this
          rw [this]
          simp
        subst hxl
        rw [e5, blockLoop_trapdoor (by exact hs.1) (by exact hs.2) hx, ← e5] at h
        obtain ⟨l', ls, m, f1, f2⟩ := blockLoop_lines hn hs.1 hs.2 h
        refine ⟨x, ⟨e, l'⟩ :: ls, m, w ++ t, ?_, by rw [g1.1, e1], .inr ⟨by simp, ?_⟩⟩
        · rw [g1.1, e1]
          rw [hs.1] at e4
          exact .more e2 e3 e4 f1
        · rw [f2, joined_cons, e5]
          simp only [copying, List.append_assoc]

/-! ### The first lines -/

theorem Lead.spaces {a c c' e k : Nat} {t r : Str} (h : Lead (c + a) t e k c' r) : Lead c (spaces a ++ t) e k c' r := by
  induction a generalizing c with
  | zero => exact h
  | succ a ih =>
    rw [spaces_succ, List.cons_append]
    refine .space (ih ?_)
    rwa [show c + 1 + a = c + (a + 1) by omega]

theorem detectBlanks_means {fuel : Nat} {st st' : DetectSt} (h : detectBlanks opts fuel st = .ok st') :
    ∃ a, Took st.cur st'.cur (spaces a) ∧ st'.cur.stats.column = st.cur.stats.column + a ∧ isBlank st'.cur.buf = false ∧ st'.lines = st.lines ∧
      st'.indent = st.indent ∧ (st'.canBorrow = true → st.canBorrow = true ∧ (a = 0 ∨ st.lines = 0)) := by
  induction fuel generalizing st with
  | zero => cases h
  | succ fuel ih =>
    rw [detectBlanks] at h
    split at h
    · rename_i hb
      obtain ⟨b, t, hc, hb⟩ := blank_cases hb
      obtain ⟨_, -, h⟩ := Out.bind_eq_ok.1 h
      split at h
      · cases h
      · rename_i hs
        obtain ⟨c1, h1, h⟩ := Out.bind_eq_ok.1 h
        rw [hc] at hs
        have hb : b = 0x20 := hb.resolve_right (by rintro rfl; exact hs rfl)
        subst hb
        obtain ⟨g1, g2, g3⟩ := adv_took hc h1
        obtain ⟨a, f1, f2, f3, f4, f5, f6⟩ := ih h
        refine ⟨a + 1, g1.trans f1, by simp only at f2; omega, f3, f4, f5, fun hcb => ?_⟩
        obtain ⟨k1, -⟩ := f6 hcb
        simp only [Bool.and_eq_true, Bool.not_eq_true', decide_eq_false_iff_not] at k1
        exact ⟨k1.1, .inr (by omega)⟩
    · rename_i hb
      cases h
      exact ⟨0, .refl _, rfl, by simpa using hb, rfl, rfl, fun h => ⟨h, .inl rfl⟩⟩

theorem detectLoop_means {fuel : Nat} {st st' : DetectSt} (hi : st.canBorrow = true → st.lines = 0 ∨ st.cur.stats.column = 0)
    (h : detectLoop opts fuel st = .ok st') :
    ∃ e k p, Lead st.cur.stats.column st.cur.buf e k st'.cur.stats.column st'.cur.buf ∧ Took st.cur st'.cur p ∧ st'.lines = st.lines + e ∧
      st'.indent = max st.indent k ∧ (st'.canBorrow = true → st'.lines = 0 ∨ st'.cur.stats.column = 0) := by
  induction fuel generalizing st with
  | zero => cases h
  | succ fuel ih =>
    rw [detectLoop] at h
    obtain ⟨_, -, h⟩ := Out.bind_eq_ok.1 h
    obtain ⟨st1, h1, h⟩ := Out.bind_eq_ok.1 h
    obtain ⟨_, -, h⟩ := Out.bind_eq_ok.1 h
    obtain ⟨a, g1, g2, g3, g4, g5, g6⟩ := detectBlanks_means h1
    have hmax : (if st1.cur.stats.column > st1.indent then st1.cur.stats.column else st1.indent) = max st.indent (st.cur.stats.column + a) := by
      rw [g5, g2]
      split <;> omega
    simp only [hmax] at h
    split at h
    · rename_i hb
      obtain ⟨c2, h2, h⟩ := Out.bind_eq_ok.1 h
      obtain ⟨w, t, f1, f2, f3, f4, f5⟩ := line_took hb h2
      obtain ⟨e, k, p, e1, e2, e3, e4, e5⟩ := ih (by exact fun _ => .inr f5) h
      simp only at e1 e2 e3 e4
      refine ⟨e + 1, max (st.cur.stats.column + a) k, _, ?_, g1.trans (f4.trans e2), by omega, by rw [e4]; omega, e5⟩
      rw [g1.1, f2]
      refine Lead.spaces (.line f1 ?_)
      rwa [f5, f3] at e1
    · rename_i hb
      cases h
      refine ⟨0, st.cur.stats.column + a, _, ?_, g1, by simp [g4], rfl, ?_⟩
      · rw [g1.1]
        refine Lead.spaces ?_
        simp only [g2]
        exact .done (not_white (by simp only [Bool.not_eq_true] at hb; simp [isWhiteSpace, g3, hb]))
      · simp only
        intro hcb
        obtain ⟨k1, k2⟩ := g6 hcb
        rcases k2 with rfl | k2
        · rcases hi k1 with h | h
          · exact .inl (by omega)
          · exact .inr (by omega)
        · exact .inl (by omega)

theorem detectBlanks_copies {fuel : Nat} {st st' : DetectSt} (h : detectBlanks opts fuel st = .ok st') :
    st'.lines = st.lines ∧ (st'.canBorrow = true ∨ st.canBorrow = false ∨ 0 < st.lines) := by
  induction fuel generalizing st with
  | zero => cases h
  | succ fuel ih =>
    rw [detectBlanks] at h
    split at h
    · obtain ⟨_, -, h⟩ := Out.bind_eq_ok.1 h
      split at h
      · cases h
      · obtain ⟨c1, h1, h⟩ := Out.bind_eq_ok.1 h
        obtain ⟨g1, g2 | g2 | g2⟩ := ih h
        · exact ⟨g1, .inl g2⟩
        · simp only [Bool.and_eq_false_imp, Bool.not_eq_eq_eq_not, Bool.not_false, decide_eq_true_eq] at g2
          refine ⟨g1, .inr ?_⟩
          cases hb : st.canBorrow
          · exact .inl rfl
          · exact .inr (g2 hb)
        · exact ⟨g1, .inr (.inr g2)⟩
    · cases h
      refine ⟨rfl, ?_⟩
      cases st'.canBorrow <;> simp

theorem detectLoop_copies {fuel : Nat} {st st' : DetectSt} (h : detectLoop opts fuel st = .ok st') :
    st.lines ≤ st'.lines ∧ (st'.canBorrow = true ∨ st.canBorrow = false ∨ 0 < st'.lines) := by
  induction fuel generalizing st with
  | zero => cases h
  | succ fuel ih =>
    rw [detectLoop] at h
    obtain ⟨_, -, h⟩ := Out.bind_eq_ok.1 h
    obtain ⟨st1, h1, h⟩ := Out.bind_eq_ok.1 h
    obtain ⟨_, -, h⟩ := Out.bind_eq_ok.1 h
    obtain ⟨g1, g2⟩ := detectBlanks_copies h1
    generalize (if st1.cur.stats.column > st1.indent then st1.cur.stats.column else st1.indent) = ind at h
    split at h
    · obtain ⟨c2, h2, h⟩ := Out.bind_eq_ok.1 h
      obtain ⟨e1, e2⟩ := ih h
      simp only at e1
      exact ⟨by omega, .inr (.inr (by omega))⟩
    · cases h
      simp only
      refine ⟨by omega, ?_⟩
      rw [g1]
      exact g2

/-! ### The end -/

theorem chompCopy_means {w v : Str} {ch : Chomping} {k : Nat} (h : chompCopy w (chompStyle ch) w.length k = .ok v) :
    v = w ++ newlines (ch.keeps k) := by
  have key : ∀ {x : Str}, fromUtf8Unwrap (ε := ScanError) x = .ok v → v = x := by
    intro x h
    unfold fromUtf8Unwrap at h
    split at h
    · cases h; rfl
    · cases h
  cases ch with
  | strip => rw [key h]; simp [Chomping.keeps]
  | keep => exact key h
  | clip =>
    simp only [chompCopy, chompStyle] at h
    split at h
    · rename_i hk
      rw [key h, List.take_of_length_le (by simp), Chomping.keeps, show min k 1 = 1 by omega]
      rfl
    · rename_i hk
      rw [key h, Chomping.keeps, show k = 0 by omega]
      simp

theorem chompCopy_none {w v : Str} {ch : Chomping} (h : chompCopy w (chompStyle ch) 0 0 = .ok v) : v = if ch = .keep then w else [] := by
  have key : ∀ {x : Str}, fromUtf8Unwrap (ε := ScanError) x = .ok v → v = x := by
    intro x h
    unfold fromUtf8Unwrap at h
    split at h
    · cases h; rfl
    · cases h
  cases ch with
  | strip => rw [key h]; simp
  | keep => simp only [chompCopy, chompStyle] at h; rw [key h]; simp
  | clip => simp only [chompCopy, chompStyle, Nat.lt_irrefl, ↓reduceIte] at h; rw [key h]; simp

theorem slice_le {s v : Str} {a b : Nat} (h : slice (ε := ScanError) s a b = .ok v) : a ≤ b := by
  unfold slice at h
  split at h
  · rename_i hc
    simp only [Bool.and_eq_true, decide_eq_true_eq] at hc
    exact hc.1.1
  · cases h

/-- Without lines, there is nothing to borrow. -/
theorem chomp_nothing {base v : Str} {ch : Chomping} {st : BlockSt} (hb : st.canBorrow = true) (hs : 0 < st.start) (hp : st.stop = 0) (hl : st.lines = 0)
    (h : scanChomp base (chompStyle ch) st = .ok v) : False := by
  unfold scanChomp at h
  rw [if_pos hb, if_neg (by simp [hl])] at h
  cases ch <;> simp only [chompStyle, chompBorrow, hl, hp, Nat.lt_irrefl, ↓reduceIte] at h
  all_goals (have := slice_le h; omega)

theorem widthOf_eq (s : Str) : widthOf (s.drop 1) = secondLen s := by
  match s with
  | [] => rfl
  | [_] => rfl
  | _ :: b :: _ =>
    simp only [List.drop_succ_cons, List.drop_zero, widthOf, secondLen, charLen, Bool.and_eq_true, decide_eq_true_eq]
    unfold Byte at *
    repeat' split
    all_goals omega

/-- Chomping a borrowed line. -/
theorem chomp_one {x : BlockScalar} {pre u v : Str} {cur : Cur} (he : x.first.empty = 0) (hm : x.more = []) (hu : x.breaks = 0 ↔ u = [])
    (h : scanChomp (pre ++ (x.first.text ++ u)) (chompStyle x.chomp) ⟨cur, [], true, pre.length, pre.length + x.first.text.length, x.breaks⟩ = .ok v) :
    v = x.read u := by
  have hsl : ∀ {w : Nat} {v : Str}, slice (ε := ScanError) (pre ++ (x.first.text ++ u)) pre.length (pre.length + x.first.text.length + w) = .ok v →
      v = x.first.text ++ u.take w := by
    intro w v h
    rw [slice_par _ h, List.drop_left, Nat.add_assoc, Nat.add_sub_cancel_left, List.take_length_add_append]
  rw [BlockScalar.read, if_pos ⟨he, hm⟩]
  unfold scanChomp at h
  rw [if_pos rfl] at h
  cases hc : x.chomp with
  | strip =>
    rw [hc] at h
    simp only [chompStyle, chompBorrow, reduceCtorEq, decide_false, Bool.false_and, Bool.false_eq_true, ↓reduceIte] at h
    rw [hsl (w := 0) h]
    simp
  | clip =>
    rw [hc] at h
    simp only [chompStyle, chompBorrow, reduceCtorEq, decide_false, Bool.false_and, Bool.false_eq_true, ↓reduceIte] at h
    split at h
    · rename_i hk
      obtain ⟨rest, h1, h⟩ := Out.bind_eq_ok.1 h
      have hr : rest = u := by
        rw [slice_par _ h1, ← List.append_assoc, ← List.length_append, List.drop_left]
        exact List.take_of_length_le (by simp only [List.length_append]; omega)
      subst hr
      rw [hsl h, widthOf_eq]
    · rename_i hk
      have hk : x.breaks = 0 := by omega
      rw [hsl (w := 0) h, hu.1 hk]
      simp
  | keep =>
    rw [hc] at h
    simp only [chompStyle, decide_true, Bool.true_and, decide_eq_true_eq] at h
    split at h
    · rename_i hk
      obtain ⟨l, h1, h⟩ := Out.bind_eq_ok.1 h
      have hl := hsl (w := 0) h1
      simp only [List.take_zero, List.append_nil] at hl
      subst hl
      simp only [chompCopy, List.replicate_zero, List.append_nil, List.nil_append] at h
      unfold fromUtf8Unwrap at h
      split at h
      · cases h
        simp only
        rw [if_neg (by omega)]
        rfl
      · cases h
    · rename_i hk
      simp only [chompBorrow] at h
      rw [hsl h]
      by_cases h0 : x.breaks = 0
      · simp [h0, newlines]
      · rw [if_pos (by omega), show x.breaks = 1 by omega]

theorem linesText_rest {n k : Nat} {s l r : Str} {ls : List BlockLine} (h : LinesText n s l ls k r) : ∃ u, s = l ++ u ∧ (u = [] → ls = [] ∧ k = 0) := by
  cases h with
  | eof => exact ⟨[], by simp, fun _ => ⟨rfl, rfl⟩⟩
  | last hl hw =>
    refine ⟨_, rfl, fun h => ?_⟩
    obtain ⟨b, u, h1, -⟩ := before_head hw
    simp [h1] at h
  | more hl hw =>
    refine ⟨_, rfl, fun h => ?_⟩
    obtain ⟨b, u, h1, -⟩ := before_head hw
    simp [h1] at h

/-- A scalar that is not a single line right after the header. -/
theorem read_value {x : BlockScalar} (u : Str) (h : x.first.empty ≠ 0 ∨ x.more ≠ []) : x.read u = x.value := by
  rw [BlockScalar.read, if_neg]
  rintro ⟨h1, h2⟩
  rcases h with h | h
  · exact h h1
  · exact h h2

/-! ### All of it -/

theorem explicit_none {d : Option Byte} (h : explicitOf d = none) : ∀ b ∈ d, b = b! '0' := by
  rintro b rfl
  simp only [explicitOf, Option.bind_some] at h
  split at h
  · assumption
  · cases h

theorem explicit_some {d : Option Byte} {i : Nat} (hd : ∀ x ∈ d, IsDigit x) (h : explicitOf d = some i) : 0 < i := by
  cases d with
  | none => cases h
  | some b =>
    have hb := isDigit_iff.2 (hd b rfl)
    simp only [isDigit, Bool.and_eq_true, decide_eq_true_eq] at hb
    simp only [explicitOf, Option.bind_some] at h
    split at h
    · cases h
    · rename_i hne
      cases h
      have h1 := hb.1
      have h2 : b ≠ b! '0' := hne
      byte_omega

theorem scanBlockEager_means {base : Nat} {fold : Bool} {c c' : Cur} {v s : Str} {style : ScalarStyle}
    (hc : c.buf = (if fold then b! '>' else b! '|') :: s) (h : scanBlockEager opts base fold c = .ok (.Scalar v style, c')) :
    BlockText base c.buf fold v c'.buf := by
  rw [scanBlockEager_eq] at h
  obtain ⟨⟨ch, ex, c1⟩, h1, h⟩ := Out.bind_eq_ok.1 h
  obtain ⟨k, d, p, g1, rfl, g3, g4, g5, g6⟩ := blockHeader_means hc h1
  simp only at h
  obtain ⟨di, h2, h⟩ := Out.bind_eq_ok.1 h
  obtain ⟨st, h3, h⟩ := Out.bind_eq_ok.1 h
  obtain ⟨v', h4, h⟩ := Out.bind_eq_ok.1 h
  simp only [Out.ok.injEq, Prod.mk.injEq, Token.Scalar.injEq] at h
  obtain ⟨⟨rfl, -⟩, rfl⟩ := h
  have hp0 : 0 < p.length := by
    cases p with
    | nil => exact absurd rfl g5
    | cons _ _ => simp
  unfold blockIndent at h2
  cases hex : ex with
  | some i =>
    exfalso
    simp only [hex, Out.ok.injEq] at h2
    subst h2
    obtain ⟨w, bl, cm, b, -, hm, -⟩ := g1
    have hi := explicit_some hm.2 (g3.symm.trans hex)
    have := blockLoop_stop (.inl (by simp only; omega)) h3
    subst this
    refine chomp_nothing (st := _) rfl ?_ rfl rfl h4
    simp only [↓reduceIte]
    have := g4.2
    omega
  | none =>
    simp only [hex] at h2
    have hd := explicit_none (g3.symm.trans hex)
    unfold detectIndent at h2
    obtain ⟨d1, h5, h2⟩ := Out.bind_eq_ok.1 h2
    cases h2
    obtain ⟨e, k1, q, f1, f2, f3, f4, f5⟩ := detectLoop_means (fun _ => .inl rfl) h5
    simp only [Nat.zero_add] at f3 f4
    have hind : (if d1.indent < base + 1 then base + 1 else d1.indent) = max k1 (base + 1) := by
      rw [f4]
      split <;> omega
    simp only [hind] at h3
    simp only [g6] at f1
    have htook := g4.trans f2
    by_cases hs : d1.cur.stats.column ≠ max k1 (base + 1) ∨ d1.cur.buf = []
    · -- nothing
      have := blockLoop_stop (by exact hs) h3
      subst this
      rw [hc]
      cases hcb : d1.canBorrow with
      | true =>
        exfalso
        refine chomp_nothing (st := _) (by exact hcb) ?_ rfl rfl h4
        simp only [hcb, ↓reduceIte]
        have := htook.2
        simp only [List.length_append] at this
        omega
      | false =>
        simp only [hcb, scanChomp, Bool.false_eq_true, ↓reduceIte] at h4
        have hv := chompCopy_none h4
        rw [f3] at hv
        rw [hv]
        exact .empty hd g1 f1 hs
    · simp only [not_or, ne_eq, Decidable.not_not] at hs
      have hn : 0 < max k1 (base + 1) := by omega
      rw [hc]
      cases hcb : d1.canBorrow with
      | false =>
        simp only [hcb, Bool.false_eq_true, ↓reduceIte] at h3
        obtain ⟨l, ls, m, e1, e2⟩ := blockLoop_lines hn hs.1 hs.2 h3
        rw [e2] at h4
        simp only [scanChomp, copying, Bool.false_eq_true, ↓reduceIte] at h4
        have hv := chompCopy_means h4
        have hj : blockJoin fold 0 = [] := by cases fold <;> rfl
        obtain ⟨u, hu, -⟩ := linesText_rest e1
        have he : e ≠ 0 := by
          have := (detectLoop_copies h5).2
          simp only [hcb, Bool.false_eq_true, reduceCtorEq, false_or, f3] at this
          omega
        have hv' : v' = (⟨fold, k, ⟨e, l⟩, ls, m⟩ : BlockScalar).read u := by
          rw [read_value _ (.inl he), hv, hj, f3]
          simp [BlockScalar.value, BlockScalar.content, joined, newlines, List.append_assoc]
        rw [hv']
        exact BlockText.lines (x := ⟨fold, k, ⟨e, l⟩, ls, m⟩) hd g1 (by rwa [← hu]) hs.1 (by rw [hs.1, ← hu]; exact e1)
      | true =>
        have he0 : e = 0 := by
          rcases f5 hcb with h | h
          · omega
          · omega
        subst he0
        have hst : d1.cur.stats.read - c.stats.read = (p ++ q).length := by rw [htook.2]; omega
        simp only [hcb, ↓reduceIte, hst] at h3
        obtain ⟨l, ls, m, u, e1, e2, e3⟩ := blockLoop_borrowed hn hs.1 hs.2 htook.1 (by rw [htook.2]) (by simp [g5]) h3
        have hv' : v' = (⟨fold, k, ⟨0, l⟩, ls, m⟩ : BlockScalar).read u := by
          rcases e3 with ⟨rfl, e3, e4⟩ | ⟨e3, e4⟩
          · rw [e4] at h4
            rw [htook.1, e2] at h4
            exact chomp_one (x := ⟨fold, k, ⟨0, l⟩, [], m⟩) rfl rfl e3 h4
          · rw [e4] at h4
            simp only [scanChomp, copying, Bool.false_eq_true, ↓reduceIte] at h4
            rw [read_value _ (.inr e3), chompCopy_means h4]
            simp [BlockScalar.value, BlockScalar.content, joined, newlines]
        rw [hv']
        exact BlockText.lines (x := ⟨fold, k, ⟨0, l⟩, ls, m⟩) hd g1 (by rwa [← e2]) hs.1 (by rw [hs.1, ← e2]; exact e1)

/-! ### The text says which -/

theorem span_unique {P : Byte → Prop} {w w' t t' : Str} (h : w ++ t = w' ++ t') (hw : ∀ x ∈ w, P x) (hw' : ∀ x ∈ w', P x)
    (ht : ∀ x u, t = x :: u → ¬ P x) (ht' : ∀ x u, t' = x :: u → ¬ P x) : w = w' ∧ t = t' := by
  induction w generalizing w' with
  | nil =>
    cases w' with
    | nil => exact ⟨rfl, h⟩
    | cons x w' => exact absurd (hw' x (by simp)) (ht x _ h)
  | cons x w ih =>
    cases w' with
    | nil => exact absurd (hw x (by simp)) (ht' x _ h.symm)
    | cons y w' =>
      simp only [List.cons_append, List.cons.injEq] at h
      obtain ⟨rfl, h⟩ := h
      obtain ⟨rfl, rfl⟩ := ih h (fun z hz => hw z (by simp [hz])) (fun z hz => hw' z (by simp [hz]))
      exact ⟨rfl, rfl⟩

theorem restOfLine_unique {l l' t t' : Str} (h : l ++ t = l' ++ t') (hl : RestOfLine l t) (hl' : RestOfLine l' t') : l = l' ∧ t = t' := by
  have key : ∀ {l l' t t' : Str}, l ++ t = l' ++ t' → RestOfLine l t → RestOfLine l' t' → l'.length ≤ l.length := by
    intro l l' t t' h hl hl'
    refine Nat.le_of_not_lt fun hlt => ?_
    have hd : (l' ++ t').drop l.length = t := by rw [← h, List.drop_left]
    rcases hl.2 with rfl | hb
    · have := congrArg List.length h
      simp at this
      omega
    · exact hl'.1 _ hlt (by rw [hd]; exact hb)
  exact List.append_inj h (Nat.le_antisymm (key h.symm hl' hl) (key h hl hl'))

theorem brk_white {w t : Str} (h : BreakBefore w t) : White (w ++ t) := .inr (before_at h)

theorem lead_unique {c e e' k k' n n' : Nat} {s r r' : Str} (h : Lead c s e k n r) (h' : Lead c s e' k' n' r') :
    e = e' ∧ k = k' ∧ n = n' ∧ r = r' := by
  induction h generalizing e' k' n' r' with
  | done hd =>
    generalize hg : s = s0 at h'
    cases h' with
    | done _ => exact ⟨rfl, rfl, rfl, rfl⟩
    | space _ => subst hg; exact absurd (.inl ⟨_, .inl rfl⟩) hd
    | line hw _ => subst hg; exact absurd (brk_white hw) hd
  | @space c c' e k t r _ ih =>
    generalize hg : (0x20 : Byte) :: t = s0 at h'
    cases h' with
    | done hd => subst hg; exact absurd (.inl ⟨_, .inl rfl⟩) hd
    | space h => cases hg; exact ih h
    | line hw _ =>
      obtain ⟨b, u, rfl, hb, -⟩ := before_head hw
      cases hg
      exact absurd rfl hb
  | @line c c' e k w t r hw _ ih =>
    generalize hg : w ++ t = s0 at h'
    cases h' with
    | done hd => subst hg; exact absurd (brk_white hw) hd
    | space h =>
      obtain ⟨b, u, rfl, hb, -⟩ := before_head hw
      cases hg
      exact absurd rfl hb
    | line hw' h =>
      obtain ⟨rfl, rfl⟩ := before_unique hg hw hw'
      obtain ⟨rfl, rfl, rfl, rfl⟩ := ih h
      exact ⟨rfl, rfl, rfl, rfl⟩

theorem margin_unique {n c e e' m m' : Nat} {s r r' : Str} (h : Margin n c s e m r) (h' : Margin n c s e' m' r') : e = e' ∧ m = m' ∧ r = r' := by
  induction h generalizing e' m' r' with
  | done hd =>
    generalize hg : s = s0 at h'
    cases h' with
    | done _ => exact ⟨rfl, rfl, rfl⟩
    | space hc _ =>
      subst hg
      rcases hd with hd | hd
      · omega
      · exact absurd (.inl ⟨_, .inl rfl⟩) hd.2
    | line hc hw _ =>
      subst hg
      rcases hd with hd | hd
      · omega
      · exact absurd (brk_white hw) hd.2
  | @space c c' e t r hc _ ih =>
    generalize hg : (0x20 : Byte) :: t = s0 at h'
    cases h' with
    | done hd =>
      subst hg
      rcases hd with hd | hd
      · omega
      · exact absurd (.inl ⟨_, .inl rfl⟩) hd.2
    | space _ h => cases hg; exact ih h
    | line _ hw _ =>
      obtain ⟨b, u, rfl, hb, -⟩ := before_head hw
      cases hg
      exact absurd rfl hb
  | @line c c' e w t r hc hw _ ih =>
    generalize hg : w ++ t = s0 at h'
    cases h' with
    | done hd =>
      subst hg
      rcases hd with hd | hd
      · omega
      · exact absurd (brk_white hw) hd.2
    | space _ h =>
      obtain ⟨b, u, rfl, hb, -⟩ := before_head hw
      cases hg
      exact absurd rfl hb
    | line _ hw' h =>
      obtain ⟨rfl, rfl⟩ := before_unique hg hw hw'
      obtain ⟨rfl, rfl, rfl⟩ := ih h
      exact ⟨rfl, rfl, rfl⟩

theorem brk_ne {w t : Str} (h : BreakBefore w t) : w ++ t ≠ [] := by
  obtain ⟨b, u, rfl, -⟩ := before_head h
  simp

theorem linesText_ne {n k : Nat} {s l r : Str} {ls : List BlockLine} (h : LinesText n s l ls k r) : s ≠ [] := by
  cases h with
  | eof h => exact h
  | last _ hw => exact fun h => brk_ne hw (List.append_eq_nil_iff.1 h).2
  | more _ hw => exact fun h => brk_ne hw (List.append_eq_nil_iff.1 h).2

theorem linesText_unique {n k k' : Nat} {s l l' r r' : Str} {ls ls' : List BlockLine} (h : LinesText n s l ls k r) (h' : LinesText n s l' ls' k' r') :
    l = l' ∧ ls = ls' ∧ k = k' ∧ r = r' := by
  induction h generalizing l' ls' k' r' with
  | @eof l hne hl =>
    generalize hg : l = s0 at h'
    cases h' with
    | eof => exact ⟨rfl, rfl, rfl, rfl⟩
    | last hl' hw =>
      obtain ⟨-, h2⟩ := restOfLine_unique (t := []) (by simpa using hg) hl hl'
      exact absurd h2.symm (brk_ne hw)
    | more hl' hw =>
      obtain ⟨-, h2⟩ := restOfLine_unique (t := []) (by simpa using hg) hl hl'
      exact absurd h2.symm (brk_ne hw)
  | @last l w t r k c hl hw hm hr =>
    generalize hg : l ++ (w ++ t) = s0 at h'
    cases h' with
    | eof _ hl' =>
      obtain ⟨-, h2⟩ := restOfLine_unique (t' := []) (by simpa using hg) hl hl'
      exact absurd h2 (brk_ne hw)
    | last hl' hw' hm' =>
      obtain ⟨rfl, h2⟩ := restOfLine_unique hg hl hl'
      obtain ⟨rfl, rfl⟩ := before_unique h2 hw hw'
      obtain ⟨rfl, rfl, rfl⟩ := margin_unique hm hm'
      exact ⟨rfl, rfl, rfl, rfl⟩
    | more hl' hw' hm' hx =>
      obtain ⟨rfl, h2⟩ := restOfLine_unique hg hl hl'
      obtain ⟨rfl, rfl⟩ := before_unique h2 hw hw'
      obtain ⟨rfl, rfl, rfl⟩ := margin_unique hm hm'
      rcases hr with hr | hr
      · exact absurd rfl hr
      · exact absurd hr (linesText_ne hx)
  | @more l l1 w t t1 r ls e k hl hw hm hx ih =>
    generalize hg : l ++ (w ++ t) = s0 at h'
    cases h' with
    | eof _ hl' =>
      obtain ⟨-, h2⟩ := restOfLine_unique (t' := []) (by simpa using hg) hl hl'
      exact absurd h2 (brk_ne hw)
    | last hl' hw' hm' hr =>
      obtain ⟨rfl, h2⟩ := restOfLine_unique hg hl hl'
      obtain ⟨rfl, rfl⟩ := before_unique h2 hw hw'
      obtain ⟨rfl, rfl, rfl⟩ := margin_unique hm hm'
      rcases hr with hr | hr
      · exact absurd rfl hr
      · exact absurd hr (linesText_ne hx)
    | more hl' hw' hm' hx' =>
      obtain ⟨rfl, h2⟩ := restOfLine_unique hg hl hl'
      obtain ⟨rfl, rfl⟩ := before_unique h2 hw hw'
      obtain ⟨rfl, -, rfl⟩ := margin_unique hm hm'
      obtain ⟨rfl, rfl, rfl, rfl⟩ := ih hx'
      exact ⟨rfl, rfl, rfl, rfl⟩

/-- The characters of the indicators. -/
def MarkByte (x : Byte) : Prop := x = b! '-' ∨ x = b! '+' ∨ IsDigit x

theorem digit_not {x : Byte} (hx : IsDigit x) : x ≠ b! '-' ∧ x ≠ b! '+' := by
  constructor <;> (rintro rfl; exact absurd (isDigit_iff.2 hx) (by decide))

theorem marks_bytes {w : Str} {c : Chomping} {d : Option Byte} (h : Marks w c d) : ∀ x ∈ w, MarkByte x := by
  have key : ∀ x ∈ c.mark ++ d.toList, MarkByte x := by
    intro x hx
    rcases List.mem_append.1 hx with hx | hx
    · cases c <;> simp only [Chomping.mark, List.mem_cons, List.not_mem_nil, or_false] at hx
      · exact .inl hx
      · exact .inr (.inl hx)
    · exact .inr (.inr (h.2 x (by simpa using hx)))
  rcases h.1 with rfl | rfl
  · exact key
  · intro x hx
    refine key x ?_
    simp only [List.mem_append] at hx ⊢
    exact hx.symm

theorem marks_unique {w : Str} {c c' : Chomping} {d d' : Option Byte} (h : Marks w c d) (h' : Marks w c' d') : c = c' ∧ d = d' := by
  obtain ⟨h1, h2⟩ := h
  obtain ⟨h3, h4⟩ := h'
  have hc : ∀ {c : Chomping} {d : Option Byte}, (w = c.mark ++ d.toList ∨ w = d.toList ++ c.mark) → (∀ x ∈ d, IsDigit x) →
      (b! '-' ∈ w ↔ c = .strip) ∧ (b! '+' ∈ w ↔ c = .keep) ∧ w.length = c.mark.length + d.toList.length ∧ (∀ x, IsDigit x → (x ∈ w ↔ d = some x)) := by
    intro c d h1 h2
    have hmem : ∀ x, x ∈ w ↔ x ∈ c.mark ∨ x ∈ d := by
      intro x
      rcases h1 with rfl | rfl <;> simp [or_comm]
    have n1 : b! '-' ∉ d := fun h => (digit_not (h2 _ h)).1 rfl
    have n2 : b! '+' ∉ d := fun h => (digit_not (h2 _ h)).2 rfl
    refine ⟨?_, ?_, ?_, ?_⟩
    · rw [hmem]
      cases c <;> simp [Chomping.mark, n1]
    · rw [hmem]
      cases c <;> simp [Chomping.mark, n2]
    · rcases h1 with rfl | rfl <;> simp [Nat.add_comm]
    · intro x hx
      rw [hmem]
      have := digit_not hx
      cases c <;> simp [Chomping.mark, this, Option.mem_def]
  obtain ⟨a1, a2, a3, a4⟩ := hc h1 h2
  obtain ⟨b1, b2, b3, b4⟩ := hc h3 h4
  have e : c = c' := by
    cases c <;> cases c' <;> simp_all
  subst e
  refine ⟨rfl, ?_⟩
  cases d with
  | some x => exact ((b4 x (h2 x rfl)).1 ((a4 x (h2 x rfl)).2 rfl)).symm
  | none =>
    cases d' with
    | none => rfl
    | some x => exact (a4 x (h4 x rfl)).1 ((b4 x (h4 x rfl)).2 rfl)

theorem ending_unique {b b' r r' : Str} (h : b ++ r = b' ++ r') (hb : b = [] ∧ r = [] ∨ BreakBefore b r) (hb' : b' = [] ∧ r' = [] ∨ BreakBefore b' r') :
    r = r' := by
  rcases hb with ⟨rfl, rfl⟩ | hb <;> rcases hb' with ⟨rfl, rfl⟩ | hb'
  · rfl
  · exact absurd h.symm (brk_ne hb')
  · exact absurd h (brk_ne hb)
  · exact (before_unique h hb hb').2

theorem ending_head {b r u : Str} {x : Byte} (hb : b = [] ∧ r = [] ∨ BreakBefore b r) (h : b ++ r = x :: u) :
    x = 0x0A ∨ x = 0x0D ∨ x = 0xC2 ∨ x = 0xE2 := by
  rcases hb with ⟨rfl, rfl⟩ | hb
  · cases h
  · have hw := hb.1
    simp only [lineBreaks, List.mem_cons, List.not_mem_nil, or_false] at hw
    rcases hw with rfl | rfl | rfl | rfl | rfl | rfl <;> cases h <;> simp

theorem comment_head {cm b r u : Str} {x : Byte} (hm : cm = [] ∨ ∃ l, cm = b! '#' :: l ∧ RestOfLine l (b ++ r))
    (hb : b = [] ∧ r = [] ∨ BreakBefore b r) (h : cm ++ (b ++ r) = x :: u) : x = b! '#' ∨ x = 0x0A ∨ x = 0x0D ∨ x = 0xC2 ∨ x = 0xE2 := by
  rcases hm with rfl | ⟨l, rfl, -⟩
  · exact .inr (ending_head hb h)
  · cases h
    exact .inl rfl

theorem headerText_unique {s r r' : Str} {c c' : Chomping} {d d' : Option Byte} (h : HeaderText s c d r) (h' : HeaderText s c' d' r') :
    c = c' ∧ d = d' ∧ r = r' := by
  obtain ⟨w, bl, cm, b, rfl, h1, h2, h3, h4⟩ := h
  obtain ⟨w', bl', cm', b', h5, h1', h2', h3', h4'⟩ := h'
  have hd : ∀ x : Byte, MarkByte x → ¬ (x = 0x20 ∨ x = 0x09) ∧ ¬ (x = b! '#' ∨ x = 0x0A ∨ x = 0x0D ∨ x = 0xC2 ∨ x = 0xE2) := by
    rintro x (rfl | rfl | hx)
    · decide
    · decide
    · have := isDigit_iff.2 hx
      constructor
      · rintro (rfl | rfl) <;> exact absurd this (by decide)
      · rintro (rfl | rfl | rfl | rfl | rfl) <;> exact absurd this (by decide)
  have hh : ∀ {bl cm b r : Str}, (∀ x ∈ bl, x = 0x20 ∨ x = 0x09) → (cm = [] ∨ ∃ l, cm = b! '#' :: l ∧ RestOfLine l (b ++ r)) →
      (b = [] ∧ r = [] ∨ BreakBefore b r) → ∀ x u, bl ++ (cm ++ (b ++ r)) = x :: u → ¬ MarkByte x := by
    intro bl cm b r h2 h3 h4 x u h hx
    cases bl with
    | nil => exact (hd x hx).2 (comment_head h3 h4 h)
    | cons y bl =>
      cases h
      exact (hd x hx).1 (h2 x (by simp))
  obtain ⟨rfl, h6⟩ := span_unique h5 (marks_bytes h1) (marks_bytes h1') (hh h2 h3 h4) (hh h2' h3' h4')
  have hb : ∀ {cm b r : Str}, (cm = [] ∨ ∃ l, cm = b! '#' :: l ∧ RestOfLine l (b ++ r)) →
      (b = [] ∧ r = [] ∨ BreakBefore b r) → ∀ x u, cm ++ (b ++ r) = x :: u → ¬ (x = 0x20 ∨ x = 0x09) := by
    intro cm b r h3 h4 x u h
    rcases comment_head h3 h4 h with rfl | rfl | rfl | rfl | rfl <;> decide
  clear h5
  obtain ⟨rfl, h5⟩ := span_unique (P := fun x => x = 0x20 ∨ x = 0x09) h6 h2 h2' (hb h3 h4) (hb h3' h4')
  obtain ⟨rfl, rfl⟩ := marks_unique h1 h1'
  refine ⟨rfl, rfl, ?_⟩
  have hn : ∀ {b r l t : Str}, (b = [] ∧ r = [] ∨ BreakBefore b r) → b ++ r = b! '#' :: l ++ t → False := by
    intro b r l t h4 h
    rcases ending_head h4 h with h | h | h | h <;> exact absurd h (by decide)
  rcases h3 with rfl | ⟨l, rfl, h3⟩ <;> rcases h3' with rfl | ⟨l', rfl, h3'⟩
  · exact ending_unique h5 h4 h4'
  · exact (hn h4 h5).elim
  · exact (hn h4' h5.symm).elim
  · simp only [List.cons_append, List.cons.injEq, true_and] at h5
    obtain ⟨-, h5⟩ := restOfLine_unique h5 h3 h3'
    exact ending_unique h5 h4 h4'

/-- What is read, and up to where, is determined by the text. -/
theorem blockText_unique {base : Nat} {s v v' r r' : Str} {fold fold' : Bool} (h : BlockText base s fold v r) (h' : BlockText base s fold' v' r') :
    fold = fold' ∧ v = v' ∧ r = r' := by
  have hfold : ∀ {f f' : Bool} {a b : Str}, (if f then b! '>' else b! '|') :: a = (if f' then b! '>' else b! '|') :: b → f = f' ∧ a = b := by
    intro f f' a b h
    simp only [List.cons.injEq] at h
    refine ⟨?_, h.2⟩
    revert h
    cases f <;> cases f' <;> simp
  cases h with
  | @lines x d s t u r k n hd hh hl hn hx =>
    generalize hg : (if x.fold then b! '>' else b! '|') :: s = s0 at h'
    cases h' with
    | @lines x' d' s' t' u' r' k' n' hd' hh' hl' hn' hx' =>
      obtain ⟨hf, rfl⟩ := hfold hg
      obtain ⟨hc, rfl, rfl⟩ := headerText_unique hh hh'
      obtain ⟨he, rfl, rfl, h2⟩ := lead_unique hl hl'
      rw [← h2] at hx'
      obtain ⟨h3, h4, h5, rfl⟩ := linesText_unique hx hx'
      have hxx : x = x' := by
        obtain ⟨f, c, ⟨e, l⟩, m, b⟩ := x
        obtain ⟨f', c', ⟨e', l'⟩, m', b'⟩ := x'
        simp only at hf hc he h3 h4 h5
        subst hf hc he h3 h4 h5
        rfl
      subst hxx
      rw [List.append_cancel_left h2]
      exact ⟨rfl, rfl, rfl⟩
    | @empty fold' c' d' s' t' r' e' k' n' hd' hh' hl' hn' =>
      obtain ⟨hf, rfl⟩ := hfold hg
      obtain ⟨-, -, rfl⟩ := headerText_unique hh hh'
      obtain ⟨-, rfl, rfl, rfl⟩ := lead_unique hl hl'
      rcases hn' with hn' | hn'
      · exact absurd hn hn'
      · exact absurd hn' (linesText_ne hx)
  | @empty fold c d s t r e k n hd hh hl hn =>
    generalize hg : (if fold then b! '>' else b! '|') :: s = s0 at h'
    cases h' with
    | @lines x' d' s' t' u' r' k' n' hd' hh' hl' hn' hx' =>
      obtain ⟨hf, rfl⟩ := hfold hg
      obtain ⟨hc, -, rfl⟩ := headerText_unique hh hh'
      obtain ⟨-, rfl, rfl, rfl⟩ := lead_unique hl hl'
      rcases hn with hn | hn
      · exact absurd hn' hn
      · exact absurd hn (linesText_ne hx')
    | @empty fold' c' d' s' t' r' e' k' n' hd' hh' hl' hn' =>
      obtain ⟨hf, rfl⟩ := hfold hg
      obtain ⟨rfl, -, rfl⟩ := headerText_unique hh hh'
      obtain ⟨rfl, rfl, rfl, rfl⟩ := lead_unique hl hl'
      exact ⟨hf, rfl, rfl⟩

/-- A step that pushes a block scalar. -/
theorem step_block {s s' : SS} (hB : Before s) (hs : Scan.scanNextToken opts s = (.ok (), s')) {e : TokenEntry} {v : Str} {fold : Bool}
    (he : e ∈ pushedBy s s') (ht : e.wrap = .Token (.Scalar v (blockStyle fold))) :
    ∃ n p text, Skips true s.buf n text ∧ s.buf = p ++ text ∧ s'.sc.context.isBlock = true ∧
      BlockText (s'.sc.context.level.getD 0) text fold v s'.buf := by
  obtain ⟨n, s1, c, h1, -, h2, h3, -, ⟨p, h4, h5⟩, h6⟩ := step_scans hB hs he
    (by rintro ⟨g, -⟩; rw [ht] at g; cases fold <;> simp [isNode, MaybeToken.marker, Marker.ofToken] at g)
  have hcx : s'.sc.context = s1.sc.context := by
    rcases h6 with h6 | ⟨t, u, h6, h7, h8⟩
    · exact h6
    · exfalso
      rw [ht] at h6
      cases h6
      rw [h7] at h8
      have h9 := directiveToken_par _ h8
      generalize b! '%' :: u = z at h9
      cases h9
  rw [ht] at h2
  rw [hcx, h3]
  refine ⟨n, p, s1.buf, h1, h4, ?_⟩
  rcases h2.means with ⟨t, h1, h2⟩ | ⟨t, h1, h2⟩ | ⟨w, x, u, rest, h1, h2⟩ | ⟨t, h1, h2⟩ | ⟨single', t, h1, h2⟩ | ⟨h1, h2⟩ | ⟨fold', t, h1, hb, h2⟩
  · cases h1; generalize s1.buf = z at h2; cases h2
  · cases h1; generalize s1.buf = z at h2; cases h2
  · cases h1
  · cases h1; generalize s1.buf = z at h2; cases h2
  · rw [h1] at h2
    rcases scanFlow_style (quoteMark_noBrk (single := single')).isBreak h2 with ⟨-, v, h, -⟩ | ⟨-, l, h⟩
    · cases single' <;> cases fold <;> cases h
    · cases h
  · rcases scanPlain_style h1 h2 with ⟨-, v', h, h'⟩ | ⟨-, l, h⟩
    · cases fold <;> cases h
    · cases h
  · have hnb : NoBrk (if fold' then b! '>' else b! '|') := by cases fold' <;> decide
    rcases scanBlock_style (by rw [h1]; simp) (by rw [h1]; exact hnb.isBreak) h2 with ⟨-, v', h, h'⟩ | ⟨-, l, h⟩
    · have hf : fold' = fold ∧ v' = v := by
        cases fold <;> cases fold' <;> simp only [blockStyle, Bool.false_eq_true, ↓reduceIte, MaybeToken.Token.injEq, Token.Scalar.injEq, reduceCtorEq, and_true, and_false] at h
        · exact ⟨rfl, h.symm⟩
        · exact ⟨rfl, h.symm⟩
      obtain ⟨rfl, rfl⟩ := hf
      exact ⟨hb, scanBlockEager_means (c := ⟨s1.buf, s1.sc.stats⟩) h1 h'⟩
    · cases h

end Yary.Blocks
