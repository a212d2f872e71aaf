import Verif.Proof.Chunk.Block

/-! # Scanning only the part of a text that a scalar was read from

Running a scanning function on `s ++ t` and on `s` alone, when the first run did not go beyond `s`.
-/

namespace Yary.Deferred

open Chunk Spec

variable {o o' : SFlags} {t : Str}

/-- The rest of the buffer is a suffix of it. -/
def Suf (a b : Str) : Prop := ∃ w, a = w ++ b

theorem Suf.refl (a : Str) : Suf a a := ⟨[], rfl⟩

theorem Suf.trans {a b c : Str} : Suf a b → Suf b c → Suf a c := by
  rintro ⟨w, rfl⟩ ⟨v, rfl⟩
  exact ⟨w ++ v, by rw [List.append_assoc]⟩

theorem Suf.drop (a : Str) (n : Nat) : Suf a (a.drop n) := ⟨a.take n, (List.take_append_drop n a).symm⟩

theorem Suf.length {a b : Str} (h : Suf a b) : b.length ≤ a.length := by
  obtain ⟨w, rfl⟩ := h
  rw [List.length_append]; omega

theorem adv_ok {c c' : Cur} {n : Nat} (h : c.adv n = .ok c') :
    c' = ⟨c.buf.drop n, c.stats.update n 0 n⟩ ∧ isBoundary c.buf n = true := by
  unfold Cur.adv at h
  split at h
  · rename_i hb; injection h with h; exact ⟨h.symm, hb⟩
  · cases h

theorem line_ok {c c' : Cur} (h : c.line = .ok c') :
    c' = ⟨c.buf.drop (breakLen c.buf), c.stats.update (breakLen c.buf) 1 0⟩ ∧
      isBoundary c.buf (breakLen c.buf) = true := by
  unfold Cur.line at h
  split at h
  · rename_i hb; injection h with h; exact ⟨h.symm, hb⟩
  · cases h

/-- What is left of a valid text at a character boundary is valid. -/
theorem adv_valid {c c' : Cur} {n : Nat} (hv : validUtf8 c.buf = true) (h : c.adv n = .ok c') :
    validUtf8 c'.buf = true := by
  obtain ⟨rfl, hb⟩ := adv_ok h
  exact validUtf8_drop hv hb

/-- What precedes a character boundary of a valid text is valid. -/
theorem valid_before {s t : Str} (hv : validUtf8 (s ++ t) = true) (ht : HeadOk t) : validUtf8 s = true := by
  obtain ⟨l, hl⟩ := (validUtf8_iff _).1 hv
  refine (validUtf8_iff s).2 ?_
  clear hv
  induction l generalizing s with
  | nil =>
    refine ⟨[], ?_⟩
    have : s = [] := by
      cases s with
      | nil => rfl
      | cons => simp [utf8] at hl
    rw [this]; rfl
  | cons c l ih =>
    obtain ⟨b, u, hc, -, -, hu, -⟩ := utf8Char_shape c
    have hcl : utf8 (c :: l) = (b :: u) ++ utf8 l := by simp [utf8, ← hc]
    rw [hcl] at hl
    rcases Nat.eq_zero_or_pos s.length with h0 | h0
    · exact ⟨[], by rw [List.length_eq_zero_iff.1 h0]; rfl⟩
    rcases Nat.lt_or_ge s.length (b :: u).length with h1 | h1
    · exfalso
      have hg : (s ++ t)[s.length]? = some ((b :: u)[s.length]) := by
        rw [hl, List.getElem?_append_left h1, List.getElem?_eq_getElem h1]
      rw [List.getElem?_append_right (Nat.le_refl _), Nat.sub_self] at hg
      cases t with
      | nil => simp at hg
      | cons x t =>
        have hx : x = (b :: u)[s.length] := by simpa using hg
        obtain ⟨m, hm⟩ : ∃ m, s.length = m + 1 := ⟨s.length - 1, by omega⟩
        have := hu ((b :: u)[s.length]) (by simp [hm])
        have := ht x t rfl
        rw [hx] at this
        byte_omega
    · obtain ⟨s', rfl⟩ : ∃ s', s = (b :: u) ++ s' := by
        refine ⟨s.drop (b :: u).length, ?_⟩
        have := congrArg (List.take (b :: u).length) hl
        rw [List.take_append_of_le_length h1, List.take_left] at this
        have h2 := List.take_append_drop (b :: u).length s
        rw [this] at h2
        exact h2.symm
      rw [List.append_assoc] at hl
      obtain ⟨l', rfl⟩ := ih (List.append_cancel_left hl)
      exact ⟨c :: l', by simp [utf8, ← hc]⟩

/-- A single byte is read as a character only if it is ASCII. -/
theorem ascii_of_one {b : Byte} {s : Str} (hv : validUtf8 (b :: s) = true) (h : isBoundary (b :: s) 1 = true) : b < 128 := by
  have hv' := validUtf8_drop hv h
  have := valid_before (s := [b]) (t := s) hv (headOk_of_valid hv')
  by_cases hb : b < 128
  · exact hb
  · unfold validUtf8 at this
    have hb : ¬ b < 0x80 := hb
    simp [hb] at this

/-! ## The steps of the cursor -/

section
variable (ht : HeadOk t)
include ht

theorem adv_grow {s : Str} {m : MStats} {n : Nat} {c : Cur} (hn : n ≤ s.length) (h : Cur.adv ⟨s ++ t, m⟩ n = .ok c) :
    c = ⟨s.drop n ++ t, m.update n 0 n⟩ ∧ Cur.adv ⟨s, m⟩ n = .ok ⟨s.drop n, m.update n 0 n⟩ := by
  obtain ⟨rfl, hb⟩ := adv_ok h
  simp only at hb ⊢
  rw [boundary_grow ht hn] at hb
  refine ⟨by rw [drop_grow hn], ?_⟩
  unfold Cur.adv
  rw [if_pos hb]

/-- A line break that was read and after which something of `s` is left. -/
theorem line_grow {s : Str} {m : MStats} {c : Cur} (hv : validUtf8 s = true) (h : Cur.line ⟨s ++ t, m⟩ = .ok c)
    (hl : t.length < c.buf.length) :
    c = ⟨s.drop (breakLen s) ++ t, m.update (breakLen s) 1 0⟩ ∧
      Cur.line ⟨s, m⟩ = .ok ⟨s.drop (breakLen s), m.update (breakLen s) 1 0⟩ := by
  obtain ⟨rfl, hb⟩ := line_ok h
  simp only [List.length_drop, List.length_append] at hl hb ⊢
  have hne : s ≠ [] := by
    rintro rfl; simp at hl; omega
  have hcr : s ≠ [0x0D] := by
    rintro rfl
    have : 0 < breakLen ([0x0D] ++ t) := breakLen_pos.2 rfl
    simp at hl this; omega
  rw [breakLen_grow hv hne hcr] at hb ⊢
  have hle := breakLen_le s
  rw [boundary_grow ht hle] at hb
  refine ⟨by rw [drop_grow hle], ?_⟩
  unfold Cur.line
  rw [if_pos hb]

end

end Yary.Deferred
