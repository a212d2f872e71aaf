import Verif.Model.Debug
import Verif.Spec.Calls

/-! # Using the event API of a debug build -/

namespace Yary.Spec

variable {σ : Type}

/-- Consecutive calls of a debug build that each handed out an event. -/
inductive DebugYields (drive : Drive σ) : PS σ → List Event → PS σ → Prop where
  | nil (s : PS σ) : DebugYields drive s [] s
  | cons {s s' s'' : PS σ} {e : Event} {es : List Event} (fuel : Nat)
      (h : Debug.nextEvent drive fuel s = (.ok (some e), s')) (t : DebugYields drive s' es s'') :
      DebugYields drive s (e :: es) s''

/-- The iterator of a debug build returns `None`. -/
def DebugFinished (drive : Drive σ) (s : PS σ) : Prop :=
  ∃ fuel s', Debug.nextEvent drive fuel s = (.ok none, s')

end Yary.Spec
