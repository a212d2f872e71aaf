import Verif.Proof.Scan.JamBlock

/-! # Rests of texts -/

namespace Yary

open Spec

theorem wide_ascii {s p : Str} (ha : Ascii (p ++ s)) (h : Wide s) : False := by
  obtain ⟨⟨b, t, rfl, hb⟩, -⟩ := h
  exact absurd (ha b (by simp)) (by byte_omega)

theorem Spec.Lead.suffix {c c' e k : Nat} {s r : Str} (h : Lead c s e k c' r) : ∃ p, s = p ++ r := by
  induction h with
  | done => exact ⟨[], rfl⟩
  | space _ ih => exact ⟨0x20 :: ih.choose, congrArg _ ih.choose_spec⟩
  | @line _ _ _ _ w _ _ _ _ ih => exact ⟨w ++ ih.choose, by rw [List.append_assoc, ← ih.choose_spec]⟩

theorem Spec.Margin.suffix {n c c' e : Nat} {s r : Str} (h : Margin n c s e c' r) : ∃ p, s = p ++ r := by
  induction h with
  | done => exact ⟨[], rfl⟩
  | space _ _ ih => exact ⟨0x20 :: ih.choose, congrArg _ ih.choose_spec⟩
  | @line _ _ _ w _ _ _ _ _ ih => exact ⟨w ++ ih.choose, by rw [List.append_assoc, ← ih.choose_spec]⟩

theorem Spec.InLines.suffix {n : Nat} {s t : Str} (h : InLines n s t) : ∃ p, s = p ++ t := by
  induction h with
  | start => exact ⟨[], rfl⟩
  | @line l w t t' e _ _ _ hm ih =>
    obtain ⟨q, hq⟩ := ih
    obtain ⟨q', hq'⟩ := hm.suffix
    exact ⟨q ++ (l ++ (w ++ q')), by rw [hq, hq']; simp⟩

theorem Spec.HeaderText.suffix {s r : Str} {c : Chomping} {d : Option Byte} (h : HeaderText s c d r) : ∃ p, s = p ++ r := by
  obtain ⟨w, bl, cm, b, h, -⟩ := h
  exact ⟨w ++ (bl ++ (cm ++ b)), by rw [h]; simp⟩

theorem Ascii.suffix {s t : Str} (h : Ascii s) (hp : ∃ p, s = p ++ t) : Ascii t := by
  obtain ⟨p, rfl⟩ := hp
  exact h.right

theorem restOfLine_ascii {l t : Str} (h : l.all (fun b => decide (0x20 ≤ b ∧ b < 0x80)) = true) (ht : t = [] ∨ AtBreak t) : RestOfLine l t := by
  refine ⟨fun i hi hb => ?_, ht⟩
  rw [List.drop_append_of_le_length (by omega), List.drop_eq_getElem_cons hi] at hb
  have h1 := List.all_eq_true.1 h l[i] (List.getElem_mem hi)
  simp only [decide_eq_true_eq] at h1
  obtain ⟨w, hw, u, hu⟩ := hb
  simp only [lineBreaks, List.mem_cons, List.not_mem_nil, or_false] at hw
  rcases hw with rfl | rfl | rfl | rfl | rfl | rfl <;>
    simp only [List.cons_append, List.cons.injEq] at hu <;> (have := hu.1; rw [← this] at h1; revert h1; decide)

end Yary
