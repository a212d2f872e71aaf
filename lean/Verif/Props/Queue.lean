import Verif.Proof.Queue

/-! # C01, C02: the token queue -/

namespace Yary

open Std Spec

variable {α : Type} [Ord α]

/-- One user operation on a queue (`/repo/src/queue.rs:41-64`). -/
def Queue.step (q : Queue α) : QOp α → QOut α × Queue α
  | .push x => (.unit, q.push x)
  | .pop => let (r, q') := q.pop; (.popped r, q')
  | .sort => (.unit, q.sort)

/-- A history of user operations. -/
def Queue.run (q : Queue α) : List (QOp α) → List (QOp α × QOut α) × Queue α
  | [] => ([], q)
  | op :: ops =>
    let (o, q') := q.step op
    let (h, q'') := q'.run ops
    ((op, o) :: h, q'')

theorem Queue.rep_run [TransOrd α] (ops : List (QOp α)) :
    ∀ {q : Queue α} {l : List α}, q.Rep l →
      ∃ l', QRun l (q.run ops).1 l' ∧ (q.run ops).2.Rep l' := by
  induction ops with
  | nil => intro q l h; exact ⟨l, .nil l, h⟩
  | cons op ops ih =>
    intro q l h
    cases op with
    | push x =>
      obtain ⟨l', hr, hrep⟩ := ih (rep_push h x)
      exact ⟨l', .cons (.push l x) hr, hrep⟩
    | pop =>
      obtain ⟨l1, hp, hrep1⟩ := rep_pop h
      obtain ⟨l', hr, hrep⟩ := ih hrep1
      exact ⟨l', .cons (.pop l l1 _ hp) hr, hrep⟩
    | sort =>
      obtain ⟨l', hr, hrep⟩ := ih (rep_sort h)
      exact ⟨l', .cons (.sort l) hr, hrep⟩

/-- **C01.** Every history of pushes, pops and sorts on a queue built from any vector behaves as
the abstract stable priority queue: each pop returns an entry strictly less than all earlier
entries and not greater than any later one. Draining what is left gives its stable sort. -/
theorem C01_queue_stable_priority [TransOrd α] (init : List α) (ops : List (QOp α)) :
    ∃ left, QRun init ((Queue.fromList init).run ops).1 left ∧
      IsStableSort left ((Queue.fromList init).run ops).2.intoSortedVec := by
  obtain ⟨l', hr, hrep⟩ := Queue.rep_run ops (Queue.rep_fromList init)
  refine ⟨l', hr, Queue.drain_stable _ _ _ hrep ?_⟩
  rw [hrep.len]
  omega

omit [Ord α] in
theorem Queue.fromList_nil : (Queue.fromList [] : Queue α) = Queue.new := rfl

/-- The instance of C01 for a queue that starts out empty. -/
theorem C01_queue_stable_priority_new [TransOrd α] (ops : List (QOp α)) :
    ∃ left, QRun [] ((Queue.new : Queue α).run ops).1 left ∧
      IsStableSort left ((Queue.new : Queue α).run ops).2.intoSortedVec :=
  C01_queue_stable_priority [] ops

theorem qrun_perm [TransOrd α] {l l' : List α} {h : List (QOp α × QOut α)} (hr : QRun l h l') :
    (l ++ pushed h).Perm (popped h ++ l') := by
  induction hr with
  | nil l => simp [pushed, popped]
  | @cons l l1 l2 op o rest hs _ ih =>
    cases hs with
    | push x => simpa [pushed, popped] using ih
    | pop _ r hp =>
      have h1 := Queue.stablePop_perm hp
      cases r with
      | none =>
        simp only [pushed, popped]
        exact (h1.append_right _).trans ih
      | some x =>
        simp only [pushed, popped, List.cons_append]
        refine (h1.append_right _).trans ?_
        simpa using ih
    | sort => simpa [pushed, popped] using ih

/-- **C02.** Nothing is lost or duplicated: in every history, initial entries plus pushed ones
are, as a multiset, the popped ones plus those a drain would still return; `len` and `is_empty`
report the number of the latter. -/
theorem C02_queue_no_loss [TransOrd α] (init : List α) (ops : List (QOp α)) :
    let r := (Queue.fromList init).run ops
    (init ++ pushed r.1).Perm (popped r.1 ++ r.2.intoSortedVec) ∧
      r.2.len = r.2.intoSortedVec.length ∧
      (r.2.isEmpty = true ↔ r.2.intoSortedVec = []) := by
  intro r
  obtain ⟨l', hr, hrep⟩ := Queue.rep_run ops (Queue.rep_fromList init)
  have hs : IsStableSort l' r.2.intoSortedVec :=
    Queue.drain_stable _ _ _ hrep (by rw [hrep.len]; omega)
  have hlen : r.2.len = r.2.intoSortedVec.length := by rw [hrep.len, hs.perm.length_eq]
  refine ⟨(qrun_perm hr).trans (hs.perm.symm.append_left _), hlen, ?_⟩
  rw [← List.length_eq_zero_iff, ← hlen]
  simp [Queue.isEmpty, Queue.len]

/-- A concrete history with a tie: entries compare by their first component only. -/
structure Tagged where
  key : Nat
  tag : Nat
  deriving DecidableEq

instance : Ord Tagged := ⟨compareOn Tagged.key⟩
instance : TransOrd Tagged := inferInstanceAs (TransCmp (compareOn Tagged.key))

example :
    ((Queue.fromList [⟨2, 0⟩, ⟨1, 1⟩, ⟨2, 2⟩] : Queue Tagged).run
      [.push ⟨1, 3⟩, .pop, .sort, .push ⟨1, 4⟩]).2.intoSortedVec
      = [⟨1, 3⟩, ⟨1, 4⟩, ⟨2, 0⟩, ⟨2, 2⟩] := by decide

end Yary
