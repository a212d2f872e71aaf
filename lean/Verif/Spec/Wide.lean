/-! # The characters eager scanning can get past -/

namespace Yary.Spec

/-- Characters of one byte in UTF-8, and the line breaks of two and three bytes. -/
def Narrow (c : Char) : Prop :=
  c.toNat < 128 ∨ c = '\u0085' ∨ c = '\u2028' ∨ c = '\u2029'

instance : DecidablePred Narrow := fun c => by unfold Narrow; infer_instance

end Yary.Spec
