import Verif.Model.Token

/-! # The text of a deferred scalar -/

namespace Yary.Spec

/-- The text that a deferred scalar is to be evaluated from. -/
def sliceOf : Lazy → Str
  | .flow _ s _ _ => s
  | .plain _ s _ _ _ => s
  | .block _ s _ _ _ => s

/-- If it is a deferred scalar, its text is a part of this one. -/
def PartOf (text : Str) : MaybeToken → Prop
  | .Token _ => True
  | .Deferred l => ∃ p q, text = p ++ (sliceOf l ++ q)

end Yary.Spec
