import Verif.Model.Basic

/-!
# The token queue (`/repo/src/queue.rs`)

`BinaryHeap<Reverse<QueueEntry<T>>>` is std; what is used of it here is its contract: `push`
adds an entry, `pop` removes an entry that is least under `QueueEntry::cmp`, `len` counts.
The heap is a list whose order carries no meaning.
-/

namespace Yary

variable {α : Type}

/-- `/repo/src/queue.rs:223-227`: `QueueEntry`. -/
structure QueueEntry (α : Type) where
  entry : α
  mark : Nat

/-- `/repo/src/queue.rs:261-274`: `Ord for QueueEntry`: the entry first, the mark breaks ties. -/
def QueueEntry.cmp [Ord α] (a b : QueueEntry α) : Ordering :=
  match compare a.entry b.entry with
  | .lt => .lt
  | .gt => .gt
  | .eq => compare a.mark b.mark

/-- `/repo/src/queue.rs:26-30`: `Queue`. -/
structure Queue (α : Type) where
  heap : List (QueueEntry α)
  increment : Nat

namespace Queue

/-- `BinaryHeap::pop` on reversed entries (std contract): take out an entry such that no other
entry is less. -/
def popLeast [Ord α] : List (QueueEntry α) → Option (QueueEntry α × List (QueueEntry α))
  | [] => none
  | e :: es =>
    match popLeast es with
    | none => some (e, [])
    | some (m, rest) => if e.cmp m = .gt then some (m, e :: rest) else some (e, m :: rest)

/-- `/repo/src/queue.rs:36-39,113-125`: `Queue::new`, `Default`. -/
def new : Queue α := { heap := [], increment := 0 }

/-- `/repo/src/queue.rs:41-46,91-96`: `Queue::push`, with the private `increment`. -/
def push (q : Queue α) (item : α) : Queue α :=
  { heap := { entry := item, mark := q.increment + 1 } :: q.heap, increment := q.increment + 1 }

/-- `/repo/src/queue.rs:48-56`: `Queue::pop`. -/
def pop [Ord α] (q : Queue α) : Option α × Queue α :=
  match popLeast q.heap with
  | some (e, rest) => (some e.entry, { q with heap := rest })
  | none => (none, q)

/-- `/repo/src/queue.rs:71-74`: `Queue::len`. -/
def len (q : Queue α) : Nat := q.heap.length

/-- `/repo/src/queue.rs:76-79`: `Queue::is_empty`. -/
def isEmpty (q : Queue α) : Bool := q.heap.isEmpty

/-- `/repo/src/queue.rs:66-69,99-111,204-213`: `into_sorted_vec` collects the consuming
iterator, which pops until it is empty. The loop is bounded by the number of entries. -/
def drain [Ord α] : Nat → Queue α → List α
  | 0, _ => []
  | n + 1, q =>
    match q.pop with
    | (none, _) => []
    | (some x, q) => x :: drain n q

/-- `/repo/src/queue.rs:66-69`: `Queue::into_sorted_vec`. -/
def intoSortedVec [Ord α] (q : Queue α) : List α := drain (q.len + 1) q

/-- `/repo/src/queue.rs:136-159`: `FromIterator`: marks 1, 2, …; `increment` ends at the count.
Also `From<Vec<T>>` (126-134). -/
def fromList (xs : List α) : Queue α :=
  xs.foldl push new

/-- `BinaryHeap::into_sorted_vec` (std contract): ascending by the entry order, i.e. repeated
removal of a least entry, reversed because the heap holds `Reverse` entries. -/
def heapSorted [Ord α] : Nat → List (QueueEntry α) → List (QueueEntry α)
  | 0, _ => []
  | n + 1, h =>
    match popLeast h with
    | none => []
    | some (e, rest) => heapSorted n rest ++ [e]

/-- `/repo/src/queue.rs:58-64`: `Queue::sort`: rebuilds the heap from the sorted entries. -/
def sort [Ord α] (q : Queue α) : Queue α :=
  { q with heap := heapSorted q.heap.length q.heap }

end Queue

end Yary
