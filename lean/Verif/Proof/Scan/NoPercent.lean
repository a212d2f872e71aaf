import Verif.Proof.Scan.Order
import Verif.Spec.Content

/-! # Where there is no `%` there are no directives -/

namespace Yary

open Spec

/-- No directive, and none to come. -/
def NoDirective (D : List TokenEntry) (s : SS) : Prop :=
  (validUtf8 s.buf = true ∧ b! '%' ∉ s.buf) ∧ ∀ e ∈ D ++ s.out, isDirective e = false

theorem NoDirective.put' {D : List TokenEntry} {s s' : SS} (h : NoDirective D s) {t : MaybeToken} {r : Nat}
    (hb : validUtf8 s'.buf = true ∧ b! '%' ∉ s'.buf) (ho : s'.out = s.out ++ [⟨t, r⟩]) (ht : isDirective ⟨t, r⟩ = false) : NoDirective D s' := by
  refine ⟨hb, ?_⟩
  rw [ho, ← List.append_assoc]
  intro e he
  rcases List.mem_append.1 he with he | he
  · exact h.2 e he
  · simp only [List.mem_singleton] at he
    subst he
    exact ht

theorem NoDirective.hops {D : List TokenEntry} {s : SS} {c : Cur} (h : NoDirective D s) (h1 : Hops s c) : validUtf8 c.buf = true ∧ b! '%' ∉ c.buf :=
  ⟨h1.valid, by
    obtain ⟨t, ht⟩ := h1.moves.suffix
    exact fun hm => h.1.2 ((show s.buf = _ from ht) ▸ List.mem_append_right _ hm)⟩

theorem closed_noDirective (D : List TokenEntry) : Closed (NoDirective D) where
  valid h := h.1.1
  flags _ h := h
  first h _ := h.put' h.1 rfl rfl
  noKey h := h
  stale h _ := h
  save _ h := h
  move h h1 := ⟨h.hops h1, h.2⟩
  node h h1 _ h2 _ := h.put' (t := _) (h.hops h1) rfl (by
    simp only [isDirective, TokenEntry.marker]
    rcases h2 with h | h | h | h <;> rw [h] <;> rfl)
  plain h _ h1 := h.put' h.1 rfl (by rcases h1 with h | h | h | h <;> subst h <;> rfl)
  boundary h _ h1 _ h2 := h.put' h.1 rfl (by
    rcases h1 with h1 | h1 | h1
    · subst h1; rfl
    · subst h1; rfl
    · obtain ⟨s0, h3, r, hr⟩ := h2 h1
      exact absurd (by rw [hr]; simp) h3.1.2)
  pop _ h _ := h.put' h.1 rfl rfl
  roll _ _ map h _ := h.put' h.1 rfl (by cases map <;> rfl)
  touch _ h _ := h
  rollKey _ _ h _ _ _ _ _ := h.put' h.1 rfl rfl
  useKey h _ _ _ _ := h.put' h.1 rfl rfl
  flowStart map h := h.put' h.1 rfl (by cases map <;> rfl)
  flowEnd map h _ _ := h.put' h.1 rfl (by cases map <;> rfl)

theorem noDirective_next (D : List TokenEntry) (sc : Scanner) (buf : Str) (out : List TokenEntry)
    (h : NoDirective D ⟨sc, buf, out⟩) : NoDirective (D ++ deliver out) ⟨sc, buf, []⟩ := by
  refine ⟨h.1, fun e he => h.2 e ?_⟩
  simpa [mem_deliver] using he

/-- None was delivered. -/
def AllOther (D : List TokenEntry) (_ : Scanner) : Prop := ∀ e ∈ D, isDirective e = false

theorem noDirective_last : AtEnd NoDirective AllOther := by
  intro D s h _ _ _ _ e he
  rcases List.mem_append.1 he with he | he
  · exact h.2 e (by simp [he])
  · rw [mem_deliver] at he
    rcases List.mem_append.1 he with he | he
    · exact h.2 e (by simp [he])
    · simp only [List.mem_singleton] at he
      subst he
      rfl

/-- No directive is handed out. -/
theorem handed_noDirective {opts : SFlags} {text : List Char} {ops : List ROp} (hq : b! '%' ∉ utf8 text)
    (h : ∀ x ∈ (runOps (borrowDrive opts (utf8 text)) ops (PeekReader.new {})).1, x.2 ≠ .panic) :
    ∀ e ∈ handed (runOps (borrowDrive opts (utf8 text)) ops (PeekReader.new {})).1, isDirective e = false := by
  have hv : validUtf8 (utf8 text) = true := (validUtf8_iff _).2 ⟨text, rfl⟩
  obtain ⟨D, hD, hpre⟩ := text_keeps_at (opts := opts) closed_noDirective (fun D _ _ h => h)
    (fun D _ n h hv => ⟨⟨hv, fun hm => hq (List.mem_of_mem_drop hm)⟩, h.2⟩) noDirective_next noDirective_last hv ⟨⟨hv, hq⟩, nofun⟩ ops h
  intro e he
  have he := hpre.subset he
  obtain ⟨-, ⟨-, h⟩ | ⟨-, h⟩⟩ := hD
  · exact h.2 e (by simpa using he)
  · exact h e he

end Yary
