import Verif.Model.Reader
import Verif.Spec.Queue

/-!
# Using a peekable reader

Histories of `peek` and `pop` on one reader, with everything the calls report.
-/

namespace Yary.Spec

variable {σ : Type}

/-- What a consumer of tokens can do. -/
inductive ROp where
  | peek | pop
  deriving DecidableEq, Repr

/-- One call. -/
def ROp.run (drive : Drive σ) (p : PeekReader σ) :
    ROp → Out ReaderError (Option TokenEntry) × PeekReader σ
  | .peek => p.peek drive
  | .pop => p.pop drive

/-- A history of calls and what each of them reported; it goes on after errors. -/
def runOps (drive : Drive σ) : List ROp → PeekReader σ →
    List (ROp × Out ReaderError (Option TokenEntry)) × PeekReader σ
  | [], p => ([], p)
  | op :: ops, p =>
    let r := op.run drive p
    let rest := runOps drive ops r.2
    ((op, r.1) :: rest.1, rest.2)

/-- The part of a history that consists of pops. -/
def pops (h : List (ROp × Out ReaderError (Option TokenEntry))) :
    List (ROp × Out ReaderError (Option TokenEntry)) := h.filter fun x => x.1 == .pop

/-- The entries handed out by the pops of a history. -/
def handed : List (ROp × Out ReaderError (Option TokenEntry)) → List TokenEntry
  | [] => []
  | (.pop, .ok (some e)) :: h => e :: handed h
  | _ :: h => handed h

/-- A source that also writes down, per call of `drive`, the entries it produced. -/
def logged (drive : Drive σ) : Drive (σ × List (List TokenEntry)) := fun s =>
  let r := drive s.1
  (r.1, r.2.1, (r.2.2, s.2 ++ [r.2.1]))

/-- `outs` are the stable sorts of the `batches`, one by one. -/
inductive SortedBatches : List (List TokenEntry) → List (List TokenEntry) → Prop where
  | nil : SortedBatches [] []
  | cons {b o : List TokenEntry} {bs os : List (List TokenEntry)} (h : IsStableSort b o)
      (t : SortedBatches bs os) : SortedBatches (b :: bs) (o :: os)

end Yary.Spec
