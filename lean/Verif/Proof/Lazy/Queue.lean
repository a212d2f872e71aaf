import Verif.Spec.Lazy
import Verif.Model.Reader

/-! # Queues of related tokens -/

namespace Yary.Deferred

open Spec

theorem pairs_isEmpty {α β : Type} {R : α → β → Prop} {l : List α} {l' : List β} (h : Pairs R l l') : l'.isEmpty = l.isEmpty := by
  cases h <;> rfl

theorem pairs_length {α β : Type} {R : α → β → Prop} {l : List α} {l' : List β} (h : Pairs R l l') : l'.length = l.length := by
  induction h with
  | nil => rfl
  | cons _ _ ih => simp [ih]

/-! ## The queue -/

/-- Related entries of the queue. -/
def EvQ (R : TokenEntry → TokenEntry → Prop) (a b : QueueEntry TokenEntry) : Prop := R a.entry b.entry ∧ b.mark = a.mark

/-- The relation leaves positions alone. -/
def Placed (R : TokenEntry → TokenEntry → Prop) : Prop := ∀ a b, R a b → b.readAt = a.readAt

variable {R : TokenEntry → TokenEntry → Prop}

theorem EvQ.cmp (hR : Placed R) {a a' b b' : QueueEntry TokenEntry} (h : EvQ R a a') (h' : EvQ R b b') : a'.cmp b' = a.cmp b := by
  have e : compare a'.entry b'.entry = compare a.entry b.entry := by
    show compareOn TokenEntry.readAt a'.entry b'.entry = compareOn TokenEntry.readAt a.entry b.entry
    unfold compareOn
    rw [hR _ _ h.1, hR _ _ h'.1]
  unfold QueueEntry.cmp
  rw [e, h.2, h'.2]

theorem popLeast_both (hR : Placed R) {h h' : List (QueueEntry TokenEntry)} (hp : Pairs (EvQ R) h h') :
    (Queue.popLeast h = none ∧ Queue.popLeast h' = none) ∨
    ∃ e e' r r', Queue.popLeast h = some (e, r) ∧ Queue.popLeast h' = some (e', r') ∧ EvQ R e e' ∧ Pairs (EvQ R) r r' := by
  induction hp with
  | nil => exact .inl ⟨rfl, rfl⟩
  | @cons a b l l' h1 h2 ih =>
    right
    rw [Queue.popLeast, Queue.popLeast]
    rcases ih with ⟨e1, e2⟩ | ⟨e, e', r, r', e1, e2, e3, e4⟩
    · rw [e1, e2]; exact ⟨a, b, [], [], rfl, rfl, h1, .nil⟩
    · rw [e1, e2]
      simp only
      rw [EvQ.cmp hR h1 e3]
      by_cases hc : a.cmp e = .gt
      · rw [if_pos hc, if_pos hc]; exact ⟨_, _, _, _, rfl, rfl, e3, .cons h1 e4⟩
      · rw [if_neg hc, if_neg hc]; exact ⟨_, _, _, _, rfl, rfl, h1, .cons e3 e4⟩

/-- Related queues. -/
def EvQueue (R : TokenEntry → TokenEntry → Prop) (q q' : Queue TokenEntry) : Prop :=
  Pairs (EvQ R) q.heap q'.heap ∧ q'.increment = q.increment

theorem EvQueue.push {q q' : Queue TokenEntry} (h : EvQueue R q q') {e e' : TokenEntry} (he : R e e') : EvQueue R (q.push e) (q'.push e') := by
  unfold Queue.push EvQueue
  rw [h.2]
  exact ⟨.cons ⟨he, rfl⟩ h.1, rfl⟩

theorem EvQueue.pushAll {q q' : Queue TokenEntry} (h : EvQueue R q q') {l l' : List TokenEntry} (hl : Pairs R l l') :
    EvQueue R (l.foldl Queue.push q) (l'.foldl Queue.push q') := by
  induction hl generalizing q q' with
  | nil => exact h
  | cons h1 _ ih => exact ih (h.push h1)

/-- Related entries, or none. -/
inductive EvOpt (R : TokenEntry → TokenEntry → Prop) : Option TokenEntry → Option TokenEntry → Prop where
  | none : EvOpt R none none
  | some {e e' : TokenEntry} (h : R e e') : EvOpt R (some e) (some e')

theorem EvOpt.isSome {a b : Option TokenEntry} (h : EvOpt R a b) : b.isSome = a.isSome := by cases h <;> rfl

theorem EvQueue.pop (hR : Placed R) {q q' : Queue TokenEntry} (h : EvQueue R q q') :
    EvOpt R q.pop.1 q'.pop.1 ∧ EvQueue R q.pop.2 q'.pop.2 := by
  unfold Queue.pop
  rcases popLeast_both hR h.1 with ⟨e1, e2⟩ | ⟨e, e', r, r', e1, e2, e3, e4⟩
  · rw [e1, e2]; exact ⟨.none, h⟩
  · rw [e1, e2]; exact ⟨.some e3.1, e4, h.2⟩

theorem EvQueue.isEmpty {q q' : Queue TokenEntry} (h : EvQueue R q q') : q'.isEmpty = q.isEmpty := pairs_isEmpty h.1
theorem EvQueue.len {q q' : Queue TokenEntry} (h : EvQueue R q q') : q'.len = q.len := pairs_length h.1

end Yary.Deferred
