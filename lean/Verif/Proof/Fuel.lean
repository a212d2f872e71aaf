import Verif.Spec.Calls

/-! The fuel of the parser's loops does not matter once they finish. -/

namespace Yary

open Spec

variable {σ ε α β : Type}

/-- `y` does what `x` does whenever `x` ends. -/
def SO.Le (x y : SO σ ε α) : Prop := ∀ s, (x s).1 ≠ .diverge → y s = x s

theorem SO.Le.refl (x : SO σ ε α) : SO.Le x x := fun _ _ => rfl

theorem SO.Le.diverge (y : SO σ ε α) : SO.Le SO.diverge y := fun _ h => absurd rfl h

theorem SO.Le.bind {x y : SO σ ε α} {f g : α → SO σ ε β} (h : SO.Le x y)
    (h' : ∀ a, SO.Le (f a) (g a)) : SO.Le (x >>= f) (y >>= g) := by
  intro s hs
  simp only [Bind.bind, SO.bind] at hs ⊢
  have hx := h s
  generalize x s = r at hs hx ⊢
  obtain ⟨o, t⟩ := r
  cases o with
  | ok a =>
    rw [hx (by simp)]
    exact h' a t hs
  | err e => rw [hx (by simp)]
  | panic => rw [hx (by simp)]
  | diverge => exact absurd rfl hs

theorem SO.Le.ite {c : Prop} [Decidable c] {x y x' y' : SO σ ε α} (h : SO.Le x y)
    (h' : SO.Le x' y') : SO.Le (if c then x else x') (if c then y else y') := by
  split <;> assumption

namespace Parser

open SO

variable {drive : Drive σ}

theorem skipDocumentEnds_le {m n : Nat} (h : m ≤ n) :
    Le (skipDocumentEnds drive m) (skipDocumentEnds drive n) := by
  induction m generalizing n with
  | zero => exact Le.diverge _
  | succ m ih =>
    obtain ⟨n, rfl⟩ : ∃ k, n = k + 1 := ⟨n - 1, by omega⟩
    refine Le.bind (Le.refl _) fun e => Le.ite (Le.bind (Le.refl _) fun _ => ih (by omega))
      (Le.refl _)

theorem scanDirectivesLoop_le {m n : Nat} (h : m ≤ n) (stop : Nat) (seen : Bool)
    (d : Directives) :
    Le (scanDirectivesLoop drive m stop seen d) (scanDirectivesLoop drive n stop seen d) := by
  induction m generalizing n stop seen d with
  | zero => exact Le.diverge _
  | succ m ih =>
    obtain ⟨n, rfl⟩ : ∃ k, n = k + 1 := ⟨n - 1, by omega⟩
    refine Le.bind (Le.refl _) fun e => ?_
    split
    · exact Le.ite (Le.bind (Le.refl _) fun _ => ih (by omega) _ _ _) (Le.refl _)
    · exact Le.bind (Le.refl _) fun _ => Le.ite (Le.refl _) (ih (by omega) _ _ _)
    · exact Le.refl _

theorem scanDocumentDirectives_le {m n : Nat} (h : m ≤ n) :
    Le (scanDocumentDirectives drive m) (scanDocumentDirectives drive n) :=
  Le.bind (Le.refl _) fun _ => Le.bind (scanDirectivesLoop_le h _ _ _) fun _ => Le.refl _

theorem documentStart_le {m n : Nat} (h : m ≤ n) (i f : Bool) :
    Le (documentStart drive m i f) (documentStart drive n i f) := by
  refine Le.bind ?_ fun _ => Le.bind (Le.refl _) fun _ => ?_
  · exact Le.ite (Le.refl _) (skipDocumentEnds_le h)
  · dsimp only
    repeat' split
    all_goals first
      | exact Le.refl _
      | exact Le.bind (scanDocumentDirectives_le h) fun _ => Le.refl _

theorem stateTransition_le {m n : Nat} (h : m ≤ n) :
    Le (stateTransition drive m) (stateTransition drive n) := by
  refine Le.bind (Le.refl _) fun s => ?_
  split
  all_goals first
    | exact Le.refl _
    | exact documentStart_le h _ _

theorem nextEventLoop_le {m n : Nat} (h : m ≤ n) {i j : Nat} (hi : i ≤ j) :
    Le (nextEventLoop drive m i) (nextEventLoop drive n j) := by
  induction i generalizing j with
  | zero => exact Le.diverge _
  | succ i ih =>
    obtain ⟨j, rfl⟩ : ∃ k, j = k + 1 := ⟨j - 1, by omega⟩
    refine Le.bind (Le.refl _) fun s => Le.ite (Le.refl _) ?_
    refine Le.bind (stateTransition_le h) fun r => ?_
    cases r with
    | none => exact ih (by omega)
    | some e => exact Le.refl _

/-- Two calls on the same state that both return, return the same. -/
theorem nextEvent_unique {m n : Nat} {s s' s'' : PS σ} {o o' : Out ParseError (Option Event)}
    (h : nextEvent drive m s = (o, s')) (h' : nextEvent drive n s = (o', s''))
    (hd : o ≠ .diverge) (hd' : o' ≠ .diverge) : o = o' ∧ s' = s'' := by
  rcases Nat.le_total m n with hmn | hmn
  · have := nextEventLoop_le (drive := drive) hmn hmn s (by
      rw [show nextEventLoop drive m m s = (o, s') from h]; exact hd)
    rw [show nextEventLoop drive n n s = (o', s'') from h',
      show nextEventLoop drive m m s = (o, s') from h] at this
    simpa [eq_comm] using this
  · have := nextEventLoop_le (drive := drive) hmn hmn s (by
      rw [show nextEventLoop drive n n s = (o', s'') from h']; exact hd')
    rw [show nextEventLoop drive n n s = (o', s'') from h',
      show nextEventLoop drive m m s = (o, s') from h] at this
    simpa using this

end Parser

/-- A history of successful calls and a finished one from the same state agree as far as they
go. -/
theorem yields_prefix {drive : Drive σ} {s s1 s2 : PS σ} {es fs : List Event}
    (h : Yields drive s es s1) (h' : Yields drive s fs s2) (hf : Finished drive s2) :
    ∃ gs, fs = es ++ gs ∧ Yields drive s1 gs s2 := by
  induction h generalizing fs with
  | nil => exact ⟨fs, rfl, h'⟩
  | cons fuel he t ih =>
    cases h' with
    | nil =>
      obtain ⟨f, s', hf⟩ := hf
      exact absurd (Parser.nextEvent_unique he hf (by simp) (by simp)).1 (by simp)
    | cons fuel' he' t' =>
      obtain ⟨h1, rfl⟩ := Parser.nextEvent_unique he he' (by simp) (by simp)
      simp only [Out.ok.injEq, Option.some.injEq] at h1
      subst h1
      obtain ⟨gs, rfl, hg⟩ := ih t'
      exact ⟨gs, rfl, hg⟩

end Yary
