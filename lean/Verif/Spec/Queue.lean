/-!
# Specification of a stable priority queue

The abstract state is the list of entries still present, in the order they were added.
-/

namespace Yary.Spec

variable {α : Type} [Ord α]

/-- Operations a user can do on a queue. -/
inductive QOp (α : Type) where
  | push (x : α)
  | pop
  | sort

/-- What an operation reports. -/
inductive QOut (α : Type) where
  | unit
  | popped (x : Option α)

/-- `StablePop l r l'`: popping a queue holding `l` (in order of insertion) may return `r` and
leave `l'`. On an empty queue nothing is returned; otherwise the result is strictly less than
every entry added before it and no entry added after it is less. -/
inductive StablePop : List α → Option α → List α → Prop where
  | empty : StablePop [] none []
  | least (pre : List α) (x : α) (post : List α)
      (before : ∀ y ∈ pre, compare x y = .lt)
      (after : ∀ y ∈ post, compare y x ≠ .lt) :
      StablePop (pre ++ x :: post) (some x) (pre ++ post)

/-- One operation of the abstract queue. -/
inductive QStep : List α → QOp α → QOut α → List α → Prop where
  | push (l : List α) (x : α) : QStep l (.push x) .unit (l ++ [x])
  | pop (l l' : List α) (r : Option α) (h : StablePop l r l') : QStep l .pop (.popped r) l'
  | sort (l : List α) : QStep l .sort .unit l

/-- A history of operations with their outputs, from `l` to `l'`. -/
inductive QRun : List α → List (QOp α × QOut α) → List α → Prop where
  | nil (l : List α) : QRun l [] l
  | cons {l l' l'' : List α} {op : QOp α} {o : QOut α} {rest : List (QOp α × QOut α)}
      (h : QStep l op o l') (t : QRun l' rest l'') : QRun l ((op, o) :: rest) l''

/-- `out` is the stable sort of `l`: a permutation, ascending, equal entries in their old order. -/
structure IsStableSort (l out : List α) : Prop where
  perm : out.Perm l
  sorted : out.Pairwise fun a b => compare b a ≠ .lt
  stable : ∀ x, out.filter (fun y => compare x y == .eq) = l.filter (fun y => compare x y == .eq)

/-- Entries pushed in a history. -/
def pushed : List (QOp α × QOut α) → List α
  | [] => []
  | (.push x, _) :: t => x :: pushed t
  | _ :: t => pushed t

/-- Entries popped in a history. -/
def popped : List (QOp α × QOut α) → List α
  | [] => []
  | (_, .popped (some x)) :: t => x :: popped t
  | _ :: t => popped t

end Yary.Spec
