import Verif.Proof.Lazy.Histories
import Verif.Proof.Scan.Quoted

/-! # The conditions on a text, in its bytes -/

namespace Yary.Deferred

open Chunk Spec Scan

/-- A byte that begins a character is where a character begins. -/
theorem utf8_split {b : Byte} (hb : b < 0x80 ∨ 0xC0 ≤ b) : ∀ (text : List Char) {p r : Str}, utf8 text = p ++ b :: r →
    ∃ p' c r', text = p' ++ c :: r' ∧ p = utf8 p' ∧ b :: r = utf8Char c ++ utf8 r' := by
  intro text
  induction text with
  | nil =>
    intro p r h
    have := congrArg List.length h
    simp [utf8] at this
  | cons c l ih =>
    intro p r h
    have hu : utf8 (c :: l) = utf8Char c ++ utf8 l := by simp [utf8]
    rw [hu] at h
    rcases List.append_eq_append_iff.1 h with ⟨a', h1, h2⟩ | ⟨c', h1, h2⟩
    · obtain ⟨p', d, r', e1, e2, e3⟩ := ih h2
      refine ⟨c :: p', d, r', by rw [e1]; rfl, ?_, e3⟩
      rw [h1, e2]; simp [utf8]
    · cases c' with
      | nil =>
        rw [List.append_nil] at h1
        rw [List.nil_append] at h2
        obtain ⟨p', d, r', e1, e2, e3⟩ := ih (p := []) (by rw [← h2]; rfl)
        have e4 : p' = [] := by
          cases p' with
          | nil => rfl
          | cons d p' =>
            have := congrArg List.length e2
            have := List.length_pos_iff.2 (utf8Char_ne_nil d)
            simp [utf8] at *
            omega
        subst e4
        refine ⟨[c], d, r', by rw [e1]; rfl, by rw [← h1]; simp [utf8], e3⟩
      | cons b' c' =>
        obtain ⟨rfl, h2⟩ : b = b' ∧ r = c' ++ utf8 l := by simpa using h2
        obtain ⟨f, t, e1, e2, e3, e4, e5⟩ := utf8Char_shape c
        cases p with
        | nil =>
          refine ⟨[], c, l, rfl, rfl, ?_⟩
          rw [h1]
          exact h2
        | cons q p =>
          exfalso
          rw [e1] at h1
          have : b ∈ t := by
            have := congrArg List.tail h1
            simp only [List.tail_cons, List.cons_append] at this
            rw [this]; simp
          have := e4 b this
          byte_omega

/-- An ASCII byte is an ASCII character. -/
theorem utf8_split_ascii {b : Byte} (hb : b < 0x80) {text : List Char} {p r : Str} (h : utf8 text = p ++ b :: r) :
    ∃ p' c r', text = p' ++ c :: r' ∧ p = utf8 p' ∧ c.toNat = b ∧ r = utf8 r' := by
  obtain ⟨p', c, r', h1, h2, h3⟩ := utf8_split (.inl hb) text h
  obtain ⟨f, t, e1, e2, e3, e4, e5⟩ := utf8Char_shape c
  have h6 := utf8Char_eq c
  rw [h6] at h3
  refine ⟨p', c, r', h1, h2, ?_⟩
  show c.val.toNat = b ∧ _
  generalize c.val.toNat = v at h3
  split at h3
  · injection h3 with h3 h4
    exact ⟨h3.symm, h4⟩
  · split at h3
    · injection h3 with h3 h4
      exfalso; byte_omega
    · split at h3
      · injection h3 with h3 h4
        exfalso; byte_omega
      · injection h3 with h3 h4
        exfalso; byte_omega

theorem utf8_cons_ascii {b : Byte} (hb : b < 0x80) {text : List Char} {r : Str} (h : utf8 text = b :: r) :
    ∃ c r', text = c :: r' ∧ c.toNat = b ∧ r = utf8 r' := by
  obtain ⟨p', c, r', h1, h2, h3, h4⟩ := utf8_split_ascii hb (p := []) h
  have e4 : p' = [] := by
    cases p' with
    | nil => rfl
    | cons d p' =>
      have := congrArg List.length h2
      have := List.length_pos_iff.2 (utf8Char_ne_nil d)
      simp [utf8] at *
      omega
  subst e4
  exact ⟨c, r', h1, h3, h4⟩

theorem noEsc_of {text : List Char} (h : NoEscapedBackslash text) : NoEsc (utf8 text) := by
  intro p r hp
  obtain ⟨p', c, r1, h1, -, h2, h3⟩ := utf8_split_ascii (by decide) hp
  obtain ⟨c2, r2, h4, h5, h6⟩ := utf8_cons_ascii (by decide) h3.symm
  obtain ⟨c3, r3, h7, h8, h9⟩ := utf8_cons_ascii (by decide) h6.symm
  refine h p' r3 ?_
  rw [h1, h4, h7, toNat_inj (c := c) (d := '\\') (by rw [h2]; decide), toNat_inj (c := c2) (d := '\\') (by rw [h5]; decide),
    toNat_inj (c := c3) (d := '"') (by rw [h8]; decide)]

theorem isBreak_kinds {r : Str} (h : isBreak r = true) : startsWith r 0x0A = true ∨ startsWith r 0x0D = true ∨
    (∃ t, r = 0xC2 :: 0x85 :: t) ∨ (∃ t, r = 0xE2 :: 0x80 :: 0xA8 :: t) ∨ ∃ t, r = 0xE2 :: 0x80 :: 0xA9 :: t := by
  unfold isBreak at h
  split at h
  · exact .inr (.inl rfl)
  · exact .inl rfl
  · exact .inr (.inr (.inl ⟨_, rfl⟩))
  · exact .inr (.inr (.inr (.inl ⟨_, rfl⟩)))
  · exact .inr (.inr (.inr (.inr ⟨_, rfl⟩)))
  · cases h

theorem narrow_of {text : List Char} (h : PlainBreaks text) : Narrow (utf8 text) := by
  rintro r ⟨w, hw⟩ hb
  rcases isBreak_kinds hb with h1 | h1 | ⟨t, rfl⟩ | ⟨t, rfl⟩ | ⟨t, rfl⟩
  · exact .inl h1
  · exact .inr h1
  all_goals
    exfalso
    obtain ⟨p', c, r', h1, h2, h3⟩ := utf8_split (.inr (by decide)) text hw
    have hc := h c (by rw [h1]; simp)
    rw [utf8Char_eq] at h3
    have hv : c.val.toNat = c.toNat := rfl
    rw [hv] at h3
    split at h3
    · injection h3 with h3 h4
      byte_omega
    split at h3
    · injection h3 with h3 h4
      injection h4 with h4 h5
      first
      | exact hc.1 (toNat_inj (by rw [show (Char.ofNat 0x85).toNat = 0x85 by decide]; byte_omega))
      | byte_omega
    split at h3
    · injection h3 with h3 h4
      injection h4 with h4 h5
      first
      | byte_omega
      | (injection h5 with h5 h6
         first
         | exact hc.2.1 (toNat_inj (by rw [show (Char.ofNat 0x2028).toNat = 0x2028 by decide]; byte_omega))
         | exact hc.2.2 (toNat_inj (by rw [show (Char.ofNat 0x2029).toNat = 0x2029 by decide]; byte_omega)))
    · injection h3 with h3 h4
      byte_omega

theorem tight_of {text : List Char} (h : Chomped text) : ¬ Loose (utf8 text) := by
  rintro ⟨r, ⟨w, hw⟩, h1, h2⟩
  apply h2
  obtain ⟨b, t, rfl, hb⟩ : ∃ b t, r = b :: t ∧ (b = b! '|' ∨ b = b! '>') := by
    rcases h1 with h1 | h1
    · obtain ⟨t, rfl⟩ := startsWith_iff.1 h1; exact ⟨_, t, rfl, .inl rfl⟩
    · obtain ⟨t, rfl⟩ := startsWith_iff.1 h1; exact ⟨_, t, rfl, .inr rfl⟩
  obtain ⟨p', c, r', h3, h4, h5, h6⟩ := utf8_split_ascii (by rcases hb with rfl | rfl <;> decide) hw
  have hc : c = '|' ∨ c = '>' := by
    rcases hb with rfl | rfl
    · exact .inl (toNat_inj (by rw [h5]; decide))
    · exact .inr (toNat_inj (by rw [h5]; decide))
  obtain ⟨r2, hr⟩ := h p' c r' h3 hc
  unfold SaysChomp headerHas
  rw [List.drop_succ_cons, List.drop_zero, h6]
  rcases hr with rfl | rfl
  · left; rw [show utf8 ('+' :: r2) = b! '+' :: utf8 r2 from rfl]; simp [startsWith_cons]
  · right; rw [show utf8 ('-' :: r2) = b! '-' :: utf8 r2 from rfl]; simp [startsWith_cons]

end Yary.Deferred
