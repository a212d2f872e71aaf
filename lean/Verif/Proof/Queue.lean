import Verif.Model.Queue
import Verif.Spec.Queue

/-! Helper lemmas about the token queue. -/

namespace Yary

open Std

variable {α : Type} [Ord α]

theorem QueueEntry.cmp_eq (a b : QueueEntry α) :
    a.cmp b = compareLex (compareOn QueueEntry.entry) (compareOn QueueEntry.mark) a b := by
  unfold QueueEntry.cmp compareLex compareOn
  cases compare a.entry b.entry <;> rfl

instance [TransOrd α] : TransCmp (QueueEntry.cmp (α := α)) := by
  have h : QueueEntry.cmp (α := α)
      = compareLex (compareOn QueueEntry.entry) (compareOn QueueEntry.mark) := by
    funext a b; exact QueueEntry.cmp_eq a b
  rw [h]
  infer_instance

namespace Queue

variable [TransOrd α]

theorem popLeast_none {h : List (QueueEntry α)} (hp : popLeast h = none) : h = [] := by
  cases h with
  | nil => rfl
  | cons e es =>
    simp only [popLeast] at hp
    split at hp
    · simp at hp
    · split at hp <;> simp at hp

theorem popLeast_some : ∀ {h : List (QueueEntry α)} {m rest},
    popLeast h = some (m, rest) → h.Perm (m :: rest) ∧ ∀ e ∈ rest, (m.cmp e).isLE := by
  intro h
  induction h with
  | nil => intro m rest hp; simp [popLeast] at hp
  | cons e es ih =>
    intro m rest hp
    simp only [popLeast] at hp
    split at hp
    · next hn =>
      simp only [Option.some.injEq, Prod.mk.injEq] at hp
      obtain ⟨rfl, rfl⟩ := hp
      rw [popLeast_none hn]
      simp
    · next m' rest' hs =>
      obtain ⟨hperm, hle⟩ := ih hs
      split at hp
      · next hgt =>
        simp only [Option.some.injEq, Prod.mk.injEq] at hp
        obtain ⟨rfl, rfl⟩ := hp
        constructor
        · exact (List.Perm.cons e hperm).trans (List.Perm.swap _ _ _)
        · intro x hx
          rcases List.mem_cons.1 hx with rfl | hx
          · have := OrientedCmp.lt_of_gt hgt
            simp [this]
          · exact hle x hx
      · next hgt =>
        simp only [Option.some.injEq, Prod.mk.injEq] at hp
        obtain ⟨rfl, rfl⟩ := hp
        have hem : (e.cmp m').isLE := by
          revert hgt; cases e.cmp m' <;> simp
        constructor
        · exact List.Perm.cons e hperm
        · intro x hx
          rcases List.mem_cons.1 hx with rfl | hx
          · exact hem
          · exact TransCmp.isLE_trans hem (hle x hx)

/-- The heap holds exactly the entries of `l`, marked in insertion order. -/
def Rep (q : Queue α) (l : List α) : Prop :=
  ∃ es : List (QueueEntry α), es.Perm q.heap ∧ es.Pairwise (fun a b => a.mark < b.mark) ∧
    (∀ e ∈ es, e.mark ≤ q.increment) ∧ es.map (·.entry) = l

omit [Ord α] [TransOrd α] in
theorem rep_new : Rep (new : Queue α) [] := ⟨[], by simp [new]⟩

omit [Ord α] [TransOrd α] in
theorem rep_push {q : Queue α} {l : List α} (h : Rep q l) (x : α) :
    Rep (q.push x) (l ++ [x]) := by
  obtain ⟨es, hp, hs, hle, hm⟩ := h
  refine ⟨es ++ [⟨x, q.increment + 1⟩], ?_, ?_, ?_, ?_⟩
  · simp only [push]
    exact List.perm_append_comm.trans (by simpa using hp)
  · rw [List.pairwise_append]
    refine ⟨hs, by simp, ?_⟩
    intro a ha b hb
    simp only [List.mem_singleton] at hb
    subst hb
    have := hle a ha
    simp only
    omega
  · intro e he
    simp only [push]
    rcases List.mem_append.1 he with he | he
    · have := hle e he; omega
    · simp only [List.mem_singleton] at he
      subst he; simp
  · simp [hm]

theorem rep_pop {q : Queue α} {l : List α} (h : Rep q l) :
    ∃ l', Spec.StablePop l q.pop.1 l' ∧ Rep q.pop.2 l' := by
  obtain ⟨es, hp, hs, hle, hm⟩ := h
  unfold pop
  cases hpl : popLeast q.heap with
  | none =>
    have := popLeast_none hpl
    rw [this] at hp
    have hes := hp.eq_nil
    subst hes
    simp only [List.map_nil] at hm
    subst hm
    exact ⟨[], .empty, [], by simp [this], by simp, by simp, by simp⟩
  | some mr =>
    obtain ⟨m, rest⟩ := mr
    obtain ⟨hperm, hmin⟩ := popLeast_some hpl
    have hmem : m ∈ es := (hp.trans hperm).mem_iff.2 (by simp)
    obtain ⟨pre, post, rfl⟩ := List.append_of_mem hmem
    have hrest : (pre ++ post).Perm rest := by
      have h1 : (m :: (pre ++ post)).Perm (m :: rest) :=
        List.perm_middle.symm.trans (hp.trans hperm)
      exact h1.cons_inv
    have hcmp : ∀ e ∈ pre ++ post, (m.cmp e).isLE := fun e he => hmin e (hrest.mem_iff.1 he)
    rw [List.pairwise_append] at hs
    obtain ⟨hs1, hs2, hs3⟩ := hs
    rw [List.pairwise_cons] at hs2
    refine ⟨(pre ++ post).map (·.entry), ?_, pre ++ post, hrest, ?_, ?_, rfl⟩
    · subst hm
      simp only [List.map_append, List.map_cons]
      apply Spec.StablePop.least
      · intro y hy
        obtain ⟨e, he, rfl⟩ := List.mem_map.1 hy
        have h1 := hcmp e (by simp [he])
        have h2 := hs3 e he m (by simp)
        unfold QueueEntry.cmp at h1
        revert h1
        cases hc : compare m.entry e.entry with
        | lt => simp
        | gt => simp
        | eq =>
          have h3 : compare m.mark e.mark = .gt := Nat.compare_eq_gt.2 h2
          simp [h3]
      · intro y hy
        obtain ⟨e, he, rfl⟩ := List.mem_map.1 hy
        have h1 := hcmp e (by simp [he])
        intro hlt
        have hgt := OrientedCmp.gt_of_lt hlt
        simp [QueueEntry.cmp, hgt] at h1
    · rw [List.pairwise_append]
      exact ⟨hs1, hs2.2, fun a ha b hb => hs3 a ha b (by simp [hb])⟩
    · intro e he
      apply hle e
      simp only [List.mem_append, List.mem_cons] at he ⊢
      rcases he with he | he
      · exact .inl he
      · exact .inr (.inr he)

theorem heapSorted_perm : ∀ (n : Nat) (h : List (QueueEntry α)), h.length ≤ n →
    (heapSorted n h).Perm h := by
  intro n
  induction n with
  | zero => intro h hn; have : h = [] := List.length_eq_zero_iff.1 (by omega); simp [this, heapSorted]
  | succ n ih =>
    intro h hn
    simp only [heapSorted]
    cases hp : popLeast h with
    | none => simp [popLeast_none hp]
    | some mr =>
      obtain ⟨m, rest⟩ := mr
      obtain ⟨hperm, -⟩ := popLeast_some hp
      have hl := hperm.length_eq
      simp only [List.length_cons] at hl
      have := ih rest (by omega)
      simp only
      exact List.perm_append_comm.trans ((List.Perm.cons m this).trans hperm.symm)

theorem rep_sort {q : Queue α} {l : List α} (h : Rep q l) : Rep q.sort l := by
  obtain ⟨es, hp, hs, hle, hm⟩ := h
  exact ⟨es, hp.trans (heapSorted_perm _ _ (Nat.le_refl _)).symm, hs, hle, hm⟩

omit [Ord α] [TransOrd α] in
theorem rep_foldl {q : Queue α} {l : List α} (h : Rep q l) (xs : List α) :
    Rep (xs.foldl push q) (l ++ xs) := by
  induction xs generalizing q l with
  | nil => simpa
  | cons x xs ih => simpa using ih (rep_push h x)

omit [Ord α] [TransOrd α] in
theorem rep_fromList (xs : List α) : Rep (fromList xs) xs := by
  simpa [fromList] using rep_foldl rep_new xs

omit [Ord α] [TransOrd α] in
theorem Rep.len {q : Queue α} {l : List α} (h : Rep q l) : q.len = l.length := by
  obtain ⟨es, hp, -, -, rfl⟩ := h
  simp [Queue.len, hp.length_eq]

theorem stablePop_perm {l l' : List α} {r : Option α} (h : Spec.StablePop l r l') :
    l.Perm (r.toList ++ l') := by
  cases h with
  | empty => simp
  | least pre x post _ _ => simp

theorem isStableSort_cons {pre post out : List α} {x : α}
    (hb : ∀ y ∈ pre, compare x y = .lt) (ha : ∀ y ∈ post, compare y x ≠ .lt)
    (h : Spec.IsStableSort (pre ++ post) out) :
    Spec.IsStableSort (pre ++ x :: post) (x :: out) := by
  refine ⟨(List.Perm.cons x h.perm).trans List.perm_middle.symm, ?_, ?_⟩
  · rw [List.pairwise_cons]
    refine ⟨?_, h.sorted⟩
    intro y hy
    rcases List.mem_append.1 (h.perm.mem_iff.1 hy) with hy | hy
    · have := OrientedCmp.gt_of_lt (hb y hy)
      simp [this]
    · exact ha y hy
  · intro z
    have hs := h.stable z
    rw [List.filter_append] at hs ⊢
    rw [List.filter_cons, List.filter_cons, hs]
    by_cases hz : compare z x = .eq
    · have hpre : pre.filter (fun y => compare z y == .eq) = [] := by
        rw [List.filter_eq_nil_iff]
        intro y hy
        have h1 := TransCmp.lt_of_eq_of_lt hz (hb y hy)
        simp [h1]
      simp [hz, hpre]
    · simp [hz]

theorem drain_stable : ∀ (n : Nat) (q : Queue α) (l : List α), Rep q l → l.length ≤ n →
    Spec.IsStableSort l (drain n q) := by
  intro n
  induction n with
  | zero =>
    intro q l hr hn
    have : l = [] := List.length_eq_zero_iff.1 (by omega)
    subst this
    exact ⟨by simp [drain], by simp [drain], by simp [drain]⟩
  | succ n ih =>
    intro q l hr hn
    obtain ⟨l', hpop, hrep⟩ := rep_pop hr
    simp only [drain]
    cases hq : q.pop with
    | mk r q' =>
      rw [hq] at hpop hrep
      cases hpop with
      | empty => exact ⟨by simp, by simp, by simp⟩
      | least pre x post hb ha =>
        have hlen : (pre ++ post).length ≤ n := by
          simp only [List.length_append, List.length_cons] at hn ⊢; omega
        exact isStableSort_cons hb ha (ih q' _ hrep hlen)

end Queue

end Yary
