import Verif.Model.Heap
import Verif.Spec.Reader

/-! # Memory -/

namespace Yary.Spec

/-- In memory there is this text, at this place. An empty text need not be anywhere. -/
def Stored (m : Mem) : Ptr → Str → Prop
  | none, s => s = []
  | some a, s => m.block a = some s

/-- The reader after a history of calls, on a source that is read in chunks; `room` says when a buffer can grow in its place. -/
def heldAfter (room : Mem → Nat → Bool) (size : Nat → Nat → Nat) (opts : SFlags) (src : Source) (ops : List ROp) : Holder :=
  (runOps (heldDrive room size opts) ops (.new ({ source := src }, {}))).2.reader.src.1

/-- What the history reports. -/
def heldHistory (room : Mem → Nat → Bool) (size : Nat → Nat → Nat) (opts : SFlags) (src : Source) (ops : List ROp) :
    List (ROp × Out ReaderError (Option TokenEntry)) :=
  (runOps (heldDrive room size opts) ops (.new ({ source := src }, {}))).1

end Yary.Spec
