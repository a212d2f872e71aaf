import Verif.Model.Event

/-! # Evaluating scalars (`/repo/src/event/types.rs:204-298`)

`eval` is the deferred scan (`Lazy::evaluate`, `/repo/src/scanner/entry.rs:130-170`). -/

namespace Yary.ScalarLike

/-- `/repo/src/event/types.rs:274-281`: `evaluate_scalar`. -/
def evaluate (eval : Yary.Lazy → Out ScanError Scalar) : ScalarLike → Out ScanError Scalar
  | .Eager s => .ok s
  | .Lazy l => eval l

/-- `/repo/src/event/types.rs:256-267`: `evaluate_scalar_by_ref`. `std::mem::take` leaves the
default, an empty scalar, which stays if the evaluation fails (or unwinds). -/
def evaluateByRef (eval : Yary.Lazy → Out ScanError Scalar) : SO ScalarLike ScanError Scalar := fun s =>
  let taken : ScalarLike := .empty
  match s.evaluate eval with
  | .ok sc => (.ok sc, .Eager sc)
  | .err e => (.err e, taken)
  | .panic => (.panic, taken)
  | .diverge => (.diverge, taken)

/-- `/repo/src/event/types.rs:236-248,295-298`: `is_evaluated`. -/
def isEvaluated : ScalarLike → Bool
  | .Eager _ => true
  | .Lazy _ => false

/-- `/repo/src/event/types.rs:334-345`: `PartialEq for ScalarLike`. -/
def eq : ScalarLike → ScalarLike → Bool
  | .Eager s, .Eager o => s == o
  | _, _ => false

end Yary.ScalarLike
