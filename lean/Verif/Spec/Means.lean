import Verif.Spec.Events

/-! # What events mean once their scalars are evaluated -/

namespace Yary.Spec

/-- The event has the data, or it is a scalar that evaluates to what is in the data. -/
inductive Means : Event → EventData → Prop where
  | same (e : Event) : Means e e.data
  | scalar {start stop : Nat} {n : Node} {c : ScalarLike} {v : Str} {style : ScalarStyle} (h : scalarOf c = .ok (.Scalar v style)) :
      Means ⟨start, stop, .Scalar n c⟩ (.Scalar n (.Eager { data := v, style }))

/-- Every scalar is evaluated and is not a block scalar. -/
def NoBlockScalar (vs : List EventData) : Prop :=
  ∀ v ∈ vs, ∀ n c, v = .Scalar n c → ∃ s, c = .Eager s ∧ s.style ≠ .Literal ∧ s.style ≠ .Folded

end Yary.Spec
