import Verif.Spec.Panics
import Verif.Model.Cow

/-! # Borrowed contents -/

namespace Yary.Spec

/-- The contents of a token. -/
def contents : Token → List Str
  | .Scalar s _ => [s]
  | .Anchor s => [s]
  | .Alias s => [s]
  | .Tag h s => [h, s]
  | .TagDirective h p => [h, p]
  | _ => []

/-- `w`, in quotes and with `r` after it, stands for itself: in single quotes there are no quotes in it, in double
quotes no backslashes, and it is in one line. -/
def Verbatim (single : Bool) (w r : Str) : Prop := (∀ b ∈ w, b ≠ if single then 0x27 else 0x5C) ∧ SameLine w r

/-- `CowIs text x v`: `x` is `v`, and if `x` is borrowed, then it is that slice of `text`. -/
def CowIs (text : Str) : Cow → Str → Prop
  | .Borrowed a b, v => ∃ p q, text = p ++ (v ++ q) ∧ a = p.length ∧ b = p.length + v.length
  | .Owned s, v => v = s

/-- The same for lists. -/
def CowsAre (text : Str) : List Cow → List Str → Prop
  | [], [] => True
  | x :: xs, v :: vs => CowIs text x v ∧ CowsAre text xs vs
  | _, _ => False

def AllBorrowed (l : List Cow) : Prop := ∀ x ∈ l, ∃ a b, x = .Borrowed a b
def AllOwned (l : List Cow) : Prop := ∀ x ∈ l, ∃ s, x = .Owned s

end Yary.Spec
