import Verif.Spec.Utf8
import Verif.Proof.Scan.Base

/-! # UTF-8 -/

namespace Yary

open Spec (utf8Char utf8)

theorem charVal_range (c : Char) :
    c.val.toNat < 0xD800 ∨ (0xDFFF < c.val.toNat ∧ c.val.toNat < 0x110000) := c.valid

theorem utf8Char_eq (c : Char) : utf8Char c =
    if c.val.toNat ≤ 0x7F then [c.val.toNat]
    else if c.val.toNat ≤ 0x7FF then [192 + c.val.toNat / 64, 128 + c.val.toNat % 64]
    else if c.val.toNat ≤ 0xFFFF then
      [224 + c.val.toNat / 4096, 128 + c.val.toNat / 64 % 64, 128 + c.val.toNat % 64]
    else [240 + c.val.toNat / 262144, 128 + c.val.toNat / 4096 % 64, 128 + c.val.toNat / 64 % 64,
      128 + c.val.toNat % 64] := by
  unfold utf8Char String.utf8EncodeChar
  have hr := charVal_range c
  simp only
  generalize c.val.toNat = v at hr ⊢
  have hu : ∀ n, (UInt8.ofNat n).toNat = n % 256 := fun n => by simp
  split
  · simp only [List.map_cons, List.map_nil, hu]
    congr 1; byte_omega
  · split
    · simp only [List.map_cons, List.map_nil, hu]
      congr 1; byte_omega
      congr 1; byte_omega
    · split
      · simp only [List.map_cons, List.map_nil, hu]
        congr 1; byte_omega
        congr 1; byte_omega
        congr 1; byte_omega
      · simp only [List.map_cons, List.map_nil, hu]
        congr 1; byte_omega
        congr 1; byte_omega
        congr 1; byte_omega
        congr 1; byte_omega

theorem or_add {i a b : Nat} (h : b < 2 ^ i) : 2 ^ i * a ||| b = 2 ^ i * a + b :=
  (Nat.two_pow_add_eq_or_of_lt h a).symm

theorem and_63 (v : Nat) : v &&& 63 = v % 64 := Nat.and_two_pow_sub_one_eq_mod v 6

theorem encodePoint_eq {v : Nat} (h : v < 0x110000) : encodePoint v =
    if v ≤ 0x7F then [v]
    else if v ≤ 0x7FF then [192 + v / 64, 128 + v % 64]
    else if v ≤ 0xFFFF then [224 + v / 4096, 128 + v / 64 % 64, 128 + v % 64]
    else [240 + v / 262144, 128 + v / 4096 % 64, 128 + v / 64 % 64, 128 + v % 64] := by
  unfold encodePoint
  simp only [Nat.shiftRight_eq_div_pow, and_63]
  have c0 : ∀ b, b < 32 → 192 ||| b = 192 + b := fun b hb => or_add (i := 6) (a := 3) (by omega)
  have e0 : ∀ b, b < 16 → 224 ||| b = 224 + b := fun b hb => or_add (i := 5) (a := 7) (by omega)
  have f0 : ∀ b, b < 8 → 240 ||| b = 240 + b := fun b hb => or_add (i := 4) (a := 15) (by omega)
  have t0 : ∀ b, 128 ||| b % 64 = 128 + b % 64 := fun b => or_add (i := 6) (a := 2) (by omega)
  simp only [t0]
  split
  · rfl
  · split
    · rw [c0 _ (by omega)]
    · split
      · rw [e0 _ (by omega)]
      · rw [f0 _ (by omega)]; simp; omega

/-- The encoder writes the UTF-8 encoding of every Unicode scalar value. -/
theorem encodePoint_char (c : Char) : encodePoint c.val.toNat = utf8Char c := by
  rw [encodePoint_eq, utf8Char_eq]
  have := charVal_range c
  omega

theorem validUtf8_cons {b : Byte} {t : Str} (h : b < 128) : validUtf8 (b :: t) = validUtf8 t := by
  rw [validUtf8.eq_def]; simp [h]

theorem validUtf8_two {b0 b1 : Byte} {t : Str} (h0 : 0xC2 ≤ b0 ∧ b0 ≤ 0xDF) :
    validUtf8 (b0 :: b1 :: t) = true ↔ (0x80 ≤ b1 ∧ b1 ≤ 0xBF) ∧ validUtf8 t = true := by
  rw [validUtf8.eq_def]
  simp [h0, isCont, show ¬ b0 < 128 by byte_omega]

/-- The second byte of a sequence of three. -/
def second3 (b0 b1 : Byte) : Prop :=
  (b0 = 0xE0 → 0xA0 ≤ b1) ∧ (b0 = 0xED → b1 ≤ 0x9F) ∧ 0x80 ≤ b1 ∧ b1 ≤ 0xBF

theorem validUtf8_three {b0 b1 b2 : Byte} {t : Str} (h0 : 0xE0 ≤ b0 ∧ b0 ≤ 0xEF) :
    validUtf8 (b0 :: b1 :: b2 :: t) = true ↔
      second3 b0 b1 ∧ (0x80 ≤ b2 ∧ b2 ≤ 0xBF) ∧ validUtf8 t = true := by
  rw [validUtf8.eq_def]
  simp only [show ¬ b0 < 128 by byte_omega, ↓reduceIte, h0.1, h0.2,
    show ¬ b0 ≤ 0xDF by byte_omega, decide_true, decide_false, Bool.and_true, Bool.and_false,
    Bool.false_eq_true, Bool.and_eq_true, and_assoc]
  have : (if (b0 == 0xE0) = true then decide (0xA0 ≤ b1) && decide (b1 ≤ 0xBF)
         else if (b0 == 0xED) = true then decide (0x80 ≤ b1) && decide (b1 ≤ 0x9F)
         else isCont b1) = true ↔ second3 b0 b1 := by
    unfold second3
    split
    · rename_i h; simp at h ⊢; subst h; byte_omega
    · split
      · rename_i h; simp at h ⊢; subst h; byte_omega
      · rename_i h h'; simp at h h'; simp [isCont, h, h']
  rw [this]
  simp [isCont, and_assoc]

/-- The second byte of a sequence of four. -/
def second4 (b0 b1 : Byte) : Prop :=
  (b0 = 0xF0 → 0x90 ≤ b1) ∧ (b0 = 0xF4 → b1 ≤ 0x8F) ∧ 0x80 ≤ b1 ∧ b1 ≤ 0xBF

theorem validUtf8_four {b0 b1 b2 b3 : Byte} {t : Str} (h0 : 0xF0 ≤ b0 ∧ b0 ≤ 0xF4) :
    validUtf8 (b0 :: b1 :: b2 :: b3 :: t) = true ↔
      second4 b0 b1 ∧ (0x80 ≤ b2 ∧ b2 ≤ 0xBF) ∧ (0x80 ≤ b3 ∧ b3 ≤ 0xBF) ∧ validUtf8 t = true := by
  rw [validUtf8.eq_def]
  simp only [show ¬ b0 < 128 by byte_omega, ↓reduceIte, h0.1, h0.2,
    show ¬ b0 ≤ 0xDF by byte_omega, show ¬ b0 ≤ 0xEF by byte_omega, decide_true, decide_false,
    Bool.and_true, Bool.and_false, Bool.false_eq_true, Bool.and_eq_true, and_assoc]
  have : (if (b0 == 0xF0) = true then decide (0x90 ≤ b1) && decide (b1 ≤ 0xBF)
         else if (b0 == 0xF4) = true then decide (0x80 ≤ b1) && decide (b1 ≤ 0x8F)
         else isCont b1) = true ↔ second4 b0 b1 := by
    unfold second4
    split
    · rename_i h; simp at h ⊢; subst h; byte_omega
    · split
      · rename_i h; simp at h ⊢; subst h; byte_omega
      · rename_i h h'; simp at h h'; simp [isCont, h, h']
  rw [this]
  simp [isCont, and_assoc]

theorem validUtf8_utf8Char (c : Char) (t : Str) :
    validUtf8 (utf8Char c ++ t) = validUtf8 t := by
  rw [utf8Char_eq]
  have hr := charVal_range c
  generalize c.val.toNat = v at hr
  rw [Bool.eq_iff_iff]
  split
  · rw [List.singleton_append, validUtf8_cons (by byte_omega)]
  · rename_i h1
    split
    · rename_i h2
      simp only [List.cons_append, List.nil_append]
      rw [validUtf8_two (by byte_omega)]
      exact ⟨fun h => h.2, fun h => ⟨by byte_omega, h⟩⟩
    · rename_i h2
      split
      · rename_i h3
        simp only [List.cons_append, List.nil_append]
        rw [validUtf8_three (by byte_omega)]
        exact ⟨fun h => h.2.2, fun h => ⟨by unfold second3; byte_omega, by byte_omega, h⟩⟩
      · rename_i h3
        simp only [List.cons_append, List.nil_append]
        rw [validUtf8_four (by byte_omega)]
        exact ⟨fun h => h.2.2.2,
          fun h => ⟨by unfold second4; byte_omega, by byte_omega, by byte_omega, h⟩⟩

theorem validUtf8_utf8 (l : List Char) (t : Str) : validUtf8 (utf8 l ++ t) = validUtf8 t := by
  induction l with
  | nil => rfl
  | cons c l ih =>
    simp only [utf8, List.flatMap_cons, List.append_assoc] at ih ⊢
    rw [validUtf8_utf8Char, ih]

/-- The character with this number. -/
theorem exists_char {v : Nat} (h : v < 0xD800 ∨ (0xDFFF < v ∧ v < 0x110000)) :
    ∃ c : Char, c.val.toNat = v := by
  have hv : Nat.isValidChar v := h
  refine ⟨Char.ofNat v, ?_⟩
  simp [Char.ofNat, hv, Char.ofNatAux]

/-- A text that is valid and not empty starts with a character. -/
theorem validUtf8_uncons {b : Byte} {s : Str} (h : validUtf8 (b :: s) = true) :
    ∃ (c : Char) (t : Str), b :: s = utf8Char c ++ t ∧ validUtf8 t = true := by
  by_cases h1 : b < 128
  · obtain ⟨c, hc⟩ := exists_char (v := b) (by byte_omega)
    refine ⟨c, s, ?_, by rwa [validUtf8_cons h1] at h⟩
    rw [utf8Char_eq, hc, if_pos (by byte_omega)]; rfl
  by_cases h2 : 0xC2 ≤ b ∧ b ≤ 0xDF
  · cases s with
    | nil => rw [validUtf8.eq_def] at h; simp [h1, h2] at h
    | cons b1 t =>
      rw [validUtf8_two h2] at h
      obtain ⟨c, hc⟩ := exists_char (v := (b - 192) * 64 + (b1 - 128)) (by byte_omega)
      refine ⟨c, t, ?_, h.2⟩
      rw [utf8Char_eq, hc, if_neg (by byte_omega), if_pos (by byte_omega)]
      simp only [List.cons_append, List.nil_append, List.cons.injEq, and_true]
      exact ⟨by byte_omega, by byte_omega⟩
  by_cases h3 : 0xE0 ≤ b ∧ b ≤ 0xEF
  · have h2' : ¬ b ≤ 0xDF := by byte_omega
    match s with
    | [] => rw [validUtf8.eq_def] at h; simp [h1, h3, h2'] at h
    | [_] => rw [validUtf8.eq_def] at h; simp [h1, h3, h2'] at h
    | b1 :: b2 :: t =>
      rw [validUtf8_three h3] at h
      obtain ⟨⟨g1, g2, g3⟩, g4, g5⟩ := h
      obtain ⟨c, hc⟩ := exists_char (v := (b - 224) * 4096 + (b1 - 128) * 64 + (b2 - 128))
        (by byte_omega)
      refine ⟨c, t, ?_, g5⟩
      rw [utf8Char_eq, hc, if_neg (by byte_omega), if_neg (by byte_omega), if_pos (by byte_omega)]
      simp only [List.cons_append, List.nil_append, List.cons.injEq, and_true]
      exact ⟨by byte_omega, by byte_omega, by byte_omega⟩
  by_cases h4 : 0xF0 ≤ b ∧ b ≤ 0xF4
  · have h2' : ¬ b ≤ 0xDF := by byte_omega
    have h3' : ¬ b ≤ 0xEF := by byte_omega
    match s with
    | [] => rw [validUtf8.eq_def] at h; simp [h1, h4, h2', h3'] at h
    | [_] => rw [validUtf8.eq_def] at h; simp [h1, h4, h2', h3'] at h
    | [_, _] => rw [validUtf8.eq_def] at h; simp [h1, h4, h2', h3'] at h
    | b1 :: b2 :: b3 :: t =>
      rw [validUtf8_four h4] at h
      obtain ⟨⟨g1, g2, g3⟩, g4, g5, g6⟩ := h
      obtain ⟨c, hc⟩ := exists_char
        (v := (b - 240) * 262144 + (b1 - 128) * 4096 + (b2 - 128) * 64 + (b3 - 128)) (by byte_omega)
      refine ⟨c, t, ?_, g6⟩
      rw [utf8Char_eq, hc, if_neg (by byte_omega), if_neg (by byte_omega), if_neg (by byte_omega)]
      simp only [List.cons_append, List.nil_append, List.cons.injEq, and_true]
      exact ⟨by byte_omega, by byte_omega, by byte_omega, by byte_omega⟩
  · rw [validUtf8.eq_def] at h
    simp only [Bool.and_eq_true, decide_eq_true_eq, h1, h2, h3, h4, ↓reduceIte] at h
    cases h

theorem utf8Char_ne_nil (c : Char) : utf8Char c ≠ [] := by
  rw [utf8Char_eq]; repeat' split
  all_goals simp

/-- What the model accepts as UTF-8 is the encodings of the texts, no more and no less. -/
theorem validUtf8_iff (s : Str) : validUtf8 s = true ↔ ∃ l : List Char, s = utf8 l := by
  constructor
  · generalize hn : s.length = n
    induction n using Nat.strongRecOn generalizing s with
    | _ n ih =>
      intro h
      cases s with
      | nil => exact ⟨[], rfl⟩
      | cons b s =>
        obtain ⟨c, t, hct, ht⟩ := validUtf8_uncons h
        have hl := List.length_pos_iff.2 (utf8Char_ne_nil c)
        obtain ⟨l, rfl⟩ := ih t.length (by rw [← hn, hct]; simp; exact hl) t rfl ht
        exact ⟨c :: l, by rw [hct]; simp [utf8]⟩
  · rintro ⟨l, rfl⟩
    have := validUtf8_utf8 l []
    simpa [validUtf8] using this

theorem validUtf8_append {s t : Str} (hs : validUtf8 s = true) : validUtf8 (s ++ t) = validUtf8 t := by
  obtain ⟨l, rfl⟩ := (validUtf8_iff s).1 hs
  exact validUtf8_utf8 l t

theorem validUtf8_ascii {s : Str} (h : Ascii s) : validUtf8 s = true := h.validUtf8

/-- The bytes of a character: the first is no continuation byte, all others are. -/
theorem utf8Char_shape (c : Char) : ∃ b t, utf8Char c = b :: t ∧ (b < 0x80 ∨ 0xC0 ≤ b) ∧ b < 0xF8 ∧
    (∀ x ∈ t, 0x80 ≤ x ∧ x < 0xC0) ∧ ∀ r, widthOf (b :: r) = t.length + 1 := by
  have hr := charVal_range c
  rw [utf8Char_eq]
  generalize c.val.toNat = v at hr
  split
  · exact ⟨_, _, rfl, by byte_omega, by byte_omega, by simp, fun r => by
      simp [widthOf, show v < 128 by omega]⟩
  · split
    · refine ⟨_, _, rfl, by byte_omega, by byte_omega, ?_, fun r => ?_⟩
      · intro x hx
        simp at hx
        byte_omega
      · simp [widthOf, show ¬ 192 + v / 64 < 128 by omega, show 192 + v / 64 < 224 by omega]
    · split
      · refine ⟨_, _, rfl, by byte_omega, by byte_omega, ?_, fun r => ?_⟩
        · intro x hx
          simp at hx
          byte_omega
        · simp [widthOf, show ¬ 224 + v / 4096 < 128 by omega, show ¬ 224 + v / 4096 < 224 by omega,
            show 224 + v / 4096 < 240 by omega]
      · refine ⟨_, _, rfl, by byte_omega, by byte_omega, ?_, fun r => ?_⟩
        · intro x hx
          simp at hx
          byte_omega
        · simp [widthOf, show ¬ 240 + v / 262144 < 128 by omega,
            show ¬ 240 + v / 262144 < 224 by omega, show ¬ 240 + v / 262144 < 240 by omega,
            show 240 + v / 262144 < 248 by omega]

/-- A valid text starts at a character boundary. -/
theorem validUtf8_head {b : Byte} {t : Str} (h : validUtf8 (b :: t) = true) :
    b < 0x80 ∨ 0xC0 ≤ b := by
  obtain ⟨c, r, hc, -⟩ := validUtf8_uncons h
  obtain ⟨x, y, hx, h1, -⟩ := utf8Char_shape c
  rw [hx] at hc
  simp only [List.cons_append, List.cons.injEq] at hc
  rw [hc.1]
  exact h1

theorem validUtf8_drop_len {s t : Str} (hs : validUtf8 s = true) (ht : validUtf8 t = true) :
    isBoundary (s ++ t) s.length = true := by
  unfold isBoundary
  cases t with
  | nil => simp
  | cons b t =>
    have := validUtf8_head ht
    simp only [List.getElem?_append_right (Nat.le_refl _), Nat.sub_self, List.getElem?_cons_zero,
      Bool.or_eq_true, beq_iff_eq, decide_eq_true_eq]
    exact .inr this

/-- A valid text is valid from every character boundary on. -/
theorem validUtf8_drop {s : Str} {n : Nat} (hs : validUtf8 s = true)
    (hn : isBoundary s n = true) : validUtf8 (s.drop n) = true := by
  obtain ⟨l, rfl⟩ := (validUtf8_iff s).1 hs
  induction l generalizing n with
  | nil => simp [utf8, validUtf8]
  | cons c l ih =>
    obtain ⟨b, t, hc, -, -, ht, -⟩ := utf8Char_shape c
    have hu : utf8 (c :: l) = (b :: t) ++ utf8 l := by simp [utf8, ← hc]
    have hl : validUtf8 (utf8 l) = true := (validUtf8_iff _).2 ⟨l, rfl⟩
    rcases Nat.eq_zero_or_pos n with rfl | h0
    · exact hs
    · rcases Nat.lt_or_ge n (b :: t).length with h1 | h1
      · rw [hu] at hn
        unfold isBoundary at hn
        rw [List.getElem?_append_left h1, List.getElem?_eq_getElem h1] at hn
        obtain ⟨m, rfl⟩ : ∃ m, n = m + 1 := ⟨n - 1, by omega⟩
        have := ht ((b :: t)[m + 1]) (by simp)
        simp only [Bool.or_eq_true, beq_iff_eq, decide_eq_true_eq] at hn
        byte_omega
      · rw [hu, List.drop_append, List.drop_of_length_le h1, List.nil_append]
        refine ih hl ?_
        rw [hu] at hn
        unfold isBoundary at hn ⊢
        rw [List.getElem?_append_right h1] at hn
        cases hx : (utf8 l)[n - (b :: t).length]? with
        | none =>
          rw [hx] at hn
          have := List.getElem?_eq_none_iff.1 hx
          simp at hn ⊢
          simp at h1
          omega
        | some x =>
          rw [hx] at hn
          simp only [Bool.or_eq_true, beq_iff_eq, decide_eq_true_eq] at hn ⊢
          rcases hn with hn | hn
          · omega
          · exact .inr hn

theorem utf8Char_noBrk {b : Byte} {t : Str} (ht : ∀ x ∈ t, 0x80 ≤ x ∧ x < 0xC0) :
    ∀ x ∈ t, NoBrk x := by
  intro x hx
  have := ht x hx
  unfold NoBrk
  byte_omega

/-- Moving over one character, whatever its width. -/
theorem adv_char {P : Prop} {c : Cur} (hV : validUtf8 c.buf = true) (hne : c.buf ≠ [])
    (hb : isBreak c.buf = false) :
    Out.Sat P (c.adv (widthOf c.buf)) (fun c' => Reads c c' ∧ c'.buf = c.buf.drop (widthOf c.buf) ∧
      c'.buf.length + 1 ≤ c.buf.length ∧ validUtf8 c'.buf = true) := by
  obtain ⟨buf, m⟩ := c
  cases buf with
  | nil => simp at hne
  | cons x s =>
    obtain ⟨ch, r, hc, hr⟩ := validUtf8_uncons hV
    obtain ⟨b, t, hct, -, -, ht, hw⟩ := utf8Char_shape ch
    rw [hct] at hc
    simp only [List.cons_append, List.cons.injEq] at hc
    obtain ⟨rfl, rfl⟩ := hc
    have hch : validUtf8 (x :: t) = true := by
      have := validUtf8_utf8Char ch []
      simpa [hct, validUtf8] using this
    have hbd : isBoundary (x :: (t ++ r)) (widthOf (x :: (t ++ r))) = true := by
      rw [hw]
      exact validUtf8_drop_len hch hr
    unfold Cur.adv
    simp only [hbd, ↓reduceIte, Out.Sat.ok]
    rw [hw]
    refine ⟨?_, trivial, by simp, by simpa using hr⟩
    refine .byte hb ?_
    have := Reads.run (t := r) (m := m.update 1 0 1) (utf8Char_noBrk (b := x) ht)
    rw [MStats.update_add, Nat.add_comm 1] at this
    simpa using this

theorem adv_valid {c c' : Cur} {n : Nat} (hV : validUtf8 c.buf = true) (h : c.adv n = .ok c') :
    validUtf8 c'.buf = true := by
  unfold Cur.adv at h
  split at h
  · rename_i hb
    cases h
    exact validUtf8_drop hV hb
  · cases h

theorem line_valid {c c' : Cur} (hV : validUtf8 c.buf = true) (h : c.line = .ok c') :
    validUtf8 c'.buf = true := by
  unfold Cur.line at h
  split at h
  · rename_i hb
    cases h
    exact validUtf8_drop hV hb
  · cases h

theorem eatWsLoop_valid {opts : SFlags} {comments : Bool} {fuel : Nat} {chomp : Bool} {c c' : Cur}
    (hV : validUtf8 c.buf = true) (h : eatWsLoop opts comments fuel chomp c = .ok c') :
    validUtf8 c'.buf = true := by
  induction fuel generalizing chomp c with
  | zero => cases h
  | succ fuel ih =>
    rw [eatWsLoop] at h
    obtain ⟨_, -, h⟩ := Out.bind_eq_ok.1 h
    repeat' split at h
    · obtain ⟨c1, h1, h⟩ := Out.bind_eq_ok.1 h
      exact ih (adv_valid hV h1) h
    · obtain ⟨c1, h1, h⟩ := Out.bind_eq_ok.1 h
      exact ih (line_valid hV h1) h
    · obtain ⟨c1, h1, h⟩ := Out.bind_eq_ok.1 h
      exact ih (adv_valid hV h1) h
    · obtain ⟨c1, h1, h⟩ := Out.bind_eq_ok.1 h
      exact ih (adv_valid hV h1) h
    · cases h; exact hV

theorem eatWs_valid {opts : SFlags} {comments : Bool} {c c' : Cur}
    (hV : validUtf8 c.buf = true) (h : eatWs opts comments c = .ok c') :
    validUtf8 c'.buf = true := eatWsLoop_valid hV h

/-- Skipping ASCII bytes leaves a valid text valid. -/
theorem validUtf8_drop_ascii {p t : Str} (hp : Ascii p) (h : validUtf8 (p ++ t) = true) :
    validUtf8 t = true := by
  rwa [validUtf8_append hp.validUtf8] at h

end Yary
