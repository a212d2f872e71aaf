import Verif.Model.Basic

/-! # Two computations side by side -/

namespace Yary.Moved

variable {σ τ ε α β γ δ : Type}

/-- What two computations return: related results and states; or the same error, after which the states are related unless it is in `E`;
or both panic; or the first does not return, and if `E none` does not hold neither does the second. -/
inductive Pair (E : Option ε → Prop) (S : σ → τ → Prop) (Q : α → β → Prop) : Out ε α × σ → Out ε β × τ → Prop where
  | ok {a : α} {b : β} {s : σ} {t : τ} (hq : Q a b) (hs : S s t) : Pair E S Q (.ok a, s) (.ok b, t)
  | err {e : ε} {s : σ} {t : τ} (h : E (some e) ∨ S s t) : Pair E S Q (.err e, s) (.err e, t)
  | panic {s : σ} {t : τ} : Pair E S Q (.panic, s) (.panic, t)
  | diverge {s : σ} {r : Out ε β × τ} (h : E none ∨ r.1 = .diverge) : Pair E S Q (.diverge, s) r

/-- Two computations which return that from related states. -/
def Rel (E : Option ε → Prop) (S : σ → τ → Prop) (Q : α → β → Prop) (x : SO σ ε α) (y : SO τ ε β) : Prop :=
  ∀ s t, S s t → Pair E S Q (x s) (y t)

variable {E : Option ε → Prop} {S : σ → τ → Prop} {Q : α → β → Prop} {Q' : γ → δ → Prop}

theorem Rel.pure {a : α} {b : β} (h : Q a b) : Rel E S Q (Pure.pure a) (Pure.pure b) := fun _ _ hs => .ok h hs

theorem Rel.fail {e : ε} : Rel E S Q (SO.fail e) (SO.fail e) := fun _ _ hs => .err (.inr hs)

theorem Rel.panic : Rel E S Q SO.panic SO.panic := fun _ _ _ => .panic

theorem Rel.diverge : Rel E S Q SO.diverge SO.diverge := fun _ _ _ => .diverge (.inr rfl)

theorem Rel.bind {x : SO σ ε α} {y : SO τ ε β} {f : α → SO σ ε γ} {g : β → SO τ ε δ} (h : Rel E S Q x y)
    (h' : ∀ a b, Q a b → Rel E S Q' (f a) (g b)) : Rel E S Q' (x >>= f) (y >>= g) := by
  intro s t hs
  have h1 := h s t hs
  show Pair E S Q' (SO.bind x f s) (SO.bind y g t)
  unfold SO.bind
  generalize x s = r at h1 ⊢
  generalize y t = r' at h1 ⊢
  cases h1 with
  | ok hq hs => exact h' _ _ hq _ _ hs
  | err h => exact .err h
  | panic => exact .panic
  | diverge h => exact .diverge (h.imp_right fun h => by obtain ⟨o, t⟩ := r'; cases h; rfl)

theorem Rel.ite {c : Prop} [Decidable c] {x x' : SO σ ε α} {y y' : SO τ ε β} (h : Rel E S Q x y) (h' : Rel E S Q x' y') :
    Rel E S Q (if c then x else x') (if c then y else y') := by
  split <;> assumption

theorem Rel.get {f : σ → SO σ ε γ} {g : τ → SO τ ε δ} (h : ∀ s t, S s t → Rel E S Q' (f s) (g t)) : Rel E S Q' (SO.get >>= f) (SO.get >>= g) :=
  fun s t hs => h s t hs s t hs

theorem Rel.modify {f : σ → σ} {g : τ → τ} (h : ∀ s t, S s t → S (f s) (g t)) : Rel E S Eq (SO.modify f) (SO.modify g) :=
  fun s t hs => .ok rfl (h s t hs)

theorem Rel.mono {Q' : α → β → Prop} {x : SO σ ε α} {y : SO τ ε β} (h : Rel E S Q x y) (hq : ∀ a b, Q a b → Q' a b) : Rel E S Q' x y := by
  intro s t hs
  have h1 := h s t hs
  generalize x s = r at h1 ⊢
  generalize y t = r' at h1 ⊢
  cases h1 with
  | ok h hs => exact .ok (hq _ _ h) hs
  | err h => exact .err h
  | panic => exact .panic
  | diverge h => exact .diverge h

end Yary.Moved
