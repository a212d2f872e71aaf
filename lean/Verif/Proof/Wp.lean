import Verif.Model.Basic

/-! A small program logic for `SO` computations: partial correctness with respect to errors and
divergence; `pan` says whether a panic is acceptable. -/

namespace Yary

variable {σ ε α β : Type}

/-- If `m` returns from `s` then `Q` holds of the result and the new state; it panics only if
`pan`. -/
def wp (pan : Prop) (m : SO σ ε α) (s : σ) (Q : α → σ → Prop) : Prop :=
  match m s with
  | (.ok a, s') => Q a s'
  | (.err _, _) => True
  | (.panic, _) => pan
  | (.diverge, _) => True

variable {pan : Prop} {Q : β → σ → Prop} {R : α → σ → Prop} {s : σ}

theorem wp_bind {x : SO σ ε α} {f : α → SO σ ε β} :
    wp pan (x >>= f) s Q ↔ wp pan x s fun a s' => wp pan (f a) s' Q := by
  simp only [wp, bind, SO.bind]
  generalize x s = r
  obtain ⟨o, s'⟩ := r
  cases o <;> simp

@[simp] theorem wp_pure {a : α} : wp pan (pure a : SO σ ε α) s R ↔ R a s := Iff.rfl
@[simp] theorem wp_fail {e : ε} : wp pan (SO.fail e : SO σ ε α) s R ↔ True := Iff.rfl
@[simp] theorem wp_panic : wp pan (SO.panic : SO σ ε α) s R ↔ pan := Iff.rfl
@[simp] theorem wp_diverge : wp pan (SO.diverge : SO σ ε α) s R ↔ True := Iff.rfl
@[simp] theorem wp_get {R : σ → σ → Prop} : wp pan (SO.get : SO σ ε σ) s R ↔ R s s := Iff.rfl
@[simp] theorem wp_modify {f : σ → σ} {R : Unit → σ → Prop} :
    wp pan (SO.modify f : SO σ ε Unit) s R ↔ R () (f s) := Iff.rfl

theorem wp_lift {x : Out ε α} :
    wp pan (SO.lift x : SO σ ε α) s R ↔
      match x with
      | .ok a => R a s
      | .err _ => True
      | .panic => pan
      | .diverge => True := by
  cases x <;> rfl

theorem wp_mono {x : SO σ ε α} {R R' : α → σ → Prop} (h : wp pan x s R)
    (hm : ∀ a s', R a s' → R' a s') : wp pan x s R' := by
  simp only [wp] at h ⊢
  generalize x s = r at h
  obtain ⟨o, s'⟩ := r
  cases o <;> simp_all

end Yary
