import Verif.Props.Reader

/-! # What a reader hands out, by what its source keeps

Properties of the tokens handed out by a peekable reader follow from properties of its source. -/

namespace Yary

open Spec

/-- Where an entry goes among those already there: behind all that are not after it. -/
def ins (l : List TokenEntry) (e : TokenEntry) : List TokenEntry :=
  l.filter (fun x => decide (x.readAt ≤ e.readAt)) ++ e ::
    l.filter (fun x => decide (e.readAt < x.readAt))

/-- The order in which the entries of a batch are handed out. -/
def deliver (l : List TokenEntry) : List TokenEntry := l.foldl ins []

@[simp] theorem deliver_nil : deliver [] = [] := rfl

theorem deliver_snoc (l : List TokenEntry) (e : TokenEntry) : deliver (l ++ [e]) = ins (deliver l) e := by
  simp [deliver]

theorem compare_entry (x y : TokenEntry) : compare x y = compare x.readAt y.readAt := rfl

theorem ins_perm (l : List TokenEntry) (e : TokenEntry) : (ins l e).Perm (l ++ [e]) := by
  unfold ins
  refine List.perm_middle.trans ?_
  refine (List.Perm.cons e ?_).trans (List.perm_append_comm (l₁ := [e]))
  have := List.filter_append_perm (fun x : TokenEntry => decide (x.readAt ≤ e.readAt)) l
  refine List.Perm.trans (List.Perm.of_eq ?_) this
  congr 1
  apply List.filter_congr
  intro x _
  simp [← Nat.not_le]

theorem ins_stable {l o : List TokenEntry} {e : TokenEntry} (h : IsStableSort l o) :
    IsStableSort (l ++ [e]) (ins o e) := by
  refine ⟨(ins_perm o e).trans (h.perm.append_right _), ?_, ?_⟩
  · unfold ins
    rw [List.pairwise_append]
    refine ⟨h.sorted.filter _, ?_, ?_⟩
    · rw [List.pairwise_cons]
      refine ⟨?_, h.sorted.filter _⟩
      intro x hx
      have := (List.mem_filter.1 hx).2
      simp only [decide_eq_true_eq] at this
      rw [compare_entry, Ne, Nat.compare_eq_lt]
      omega
    · intro a ha b hb
      have ha := (List.mem_filter.1 ha).2
      simp only [decide_eq_true_eq] at ha
      rw [compare_entry, Ne, Nat.compare_eq_lt]
      rcases List.mem_cons.1 hb with rfl | hb
      · omega
      · have hb := (List.mem_filter.1 hb).2
        simp only [decide_eq_true_eq] at hb
        omega
  · intro x
    unfold ins
    rw [List.filter_append, List.filter_append, ← h.stable x, List.filter_cons, List.filter_filter,
      List.filter_filter]
    have e1 : ∀ y : TokenEntry, (compare x y == .eq) = decide (x.readAt = y.readAt) := by
      intro y
      rw [compare_entry]
      by_cases hxy : x.readAt = y.readAt
      · rw [Nat.compare_eq_eq.2 hxy]; simp [hxy]
      · simp only [hxy, decide_false, beq_eq_false_iff_ne, ne_eq]
        rw [Nat.compare_eq_eq]; exact hxy
    simp only [e1]
    have key : ∀ (p : TokenEntry → Bool), (∀ y ∈ o, x.readAt = y.readAt → p y = true) →
        o.filter (fun y => decide (x.readAt = y.readAt) && p y) =
          o.filter (fun y => decide (x.readAt = y.readAt)) := by
      intro p hp
      apply List.filter_congr
      intro y hy
      by_cases hxy : x.readAt = y.readAt
      · simp [hxy, hp y hy hxy]
      · simp [hxy]
    have kill : ∀ (p : TokenEntry → Bool), (∀ y ∈ o, x.readAt = y.readAt → p y = false) →
        o.filter (fun y => decide (x.readAt = y.readAt) && p y) = [] := by
      intro p hp
      rw [List.filter_eq_nil_iff]
      intro y hy
      by_cases hxy : x.readAt = y.readAt
      · simp [hp y hy hxy]
      · simp [hxy]
    rcases Nat.lt_trichotomy x.readAt e.readAt with hlt | heq | hgt
    · rw [key _ (fun y _ h => by simp; omega), kill _ (fun y _ h => by simp; omega)]
      have : ¬ x.readAt = e.readAt := by omega
      simp [this]
    · rw [key _ (fun y _ h => by simp; omega), kill _ (fun y _ h => by simp; omega)]
      simp [heq]
    · rw [kill _ (fun y _ h => by simp; omega), key _ (fun y _ h => by simp; omega)]
      have : ¬ x.readAt = e.readAt := by omega
      simp [this]

theorem deliver_stable (l : List TokenEntry) : IsStableSort l (deliver l) := by
  have : ∀ (m l o : List TokenEntry), IsStableSort l o → IsStableSort (l ++ m) (m.foldl ins o) := by
    intro m
    induction m with
    | nil => intro l o h; simpa using h
    | cons e m ih =>
      intro l o h
      have := ih (l ++ [e]) (ins o e) (ins_stable h)
      simpa using this
  have := this l [] [] ⟨.nil, .nil, fun _ => rfl⟩
  rwa [List.nil_append] at this

theorem sorted_unique : ∀ {a b : List TokenEntry},
    a.Pairwise (fun x y => compare y x ≠ .lt) → b.Pairwise (fun x y => compare y x ≠ .lt) →
    (∀ x, a.filter (fun y => compare x y == .eq) = b.filter (fun y => compare x y == .eq)) → a = b := by
  have refl : ∀ x : TokenEntry, (compare x x == .eq) = true := by
    intro x; rw [compare_entry, Nat.compare_eq_eq.2 rfl]; rfl
  have mem : ∀ {a b : List TokenEntry},
      (∀ x, a.filter (fun y => compare x y == .eq) = b.filter (fun y => compare x y == .eq)) →
      ∀ x ∈ a, x ∈ b := by
    intro a b h x hx
    have : x ∈ a.filter (fun y => compare x y == .eq) := List.mem_filter.2 ⟨hx, refl x⟩
    rw [h x] at this
    exact (List.mem_filter.1 this).1
  intro a
  induction a with
  | nil =>
    intro b _ _ h
    cases b with
    | nil => rfl
    | cons y b => exact absurd (mem (fun x => (h x).symm) y (by simp)) (by simp)
  | cons x a ih =>
    intro b ha hb h
    cases b with
    | nil => exact absurd (mem h x (by simp)) (by simp)
    | cons y b =>
      rw [List.pairwise_cons] at ha hb
      have le1 : y.readAt ≤ x.readAt := by
        rcases List.mem_cons.1 (mem h x (by simp)) with rfl | hx
        · exact Nat.le_refl _
        · have := hb.1 x hx
          rw [compare_entry, Ne, Nat.compare_eq_lt] at this
          omega
      have le2 : x.readAt ≤ y.readAt := by
        rcases List.mem_cons.1 (mem (fun x => (h x).symm) y (by simp)) with rfl | hy
        · exact Nat.le_refl _
        · have := ha.1 y hy
          rw [compare_entry, Ne, Nat.compare_eq_lt] at this
          omega
      have hxy : (compare x y == .eq) = true := by
        rw [compare_entry, Nat.compare_eq_eq.2 (by omega)]; rfl
      have h0 := h x
      rw [List.filter_cons, List.filter_cons, if_pos (refl x), if_pos hxy] at h0
      simp only [List.cons.injEq] at h0
      obtain ⟨rfl, -⟩ := h0
      congr 1
      refine ih ha.2 hb.2 ?_
      intro z
      have := h z
      rw [List.filter_cons, List.filter_cons] at this
      split at this
      · simpa using this
      · exact this

theorem deliver_unique {l o : List TokenEntry} (h : IsStableSort l o) : o = deliver l :=
  sorted_unique h.sorted (deliver_stable l).sorted
    fun x => (h.stable x).trans ((deliver_stable l).stable x).symm

/-- What a call reports, without what it returns. -/
def Out.void {ε α : Type} : Out ε α → Out ε Unit
  | .ok _ => .ok ()
  | .err e => .err e
  | .panic => .panic
  | .diverge => .diverge

variable {σ : Type} {drive : Drive σ} {K : Out ReaderError Unit → Prop}
  {J : σ → List TokenEntry → Prop}

/-- What was handed out, is peeked at or is queued is what the source produced, as `J` says. -/
def Kept (J : σ → List TokenEntry → Prop) (p : PeekReader σ) (out : List TokenEntry) : Prop :=
  (∃ l, p.reader.queue.Rep l) ∧ J p.reader.src (out ++ p.peeked.toList ++ p.reader.queue.intoSortedVec)

theorem kept_takeNext (hJ : ∀ s D o b s', J s D → drive s = (o, b, s') → K o → J s' (D ++ deliver b))
    {p : PeekReader σ} {out : List TokenEntry} (h : Kept J p out)
    (hK : K (p.takeNext drive).1) : Kept J (p.takeNext drive).2 out := by
  obtain ⟨⟨l, hl⟩, he⟩ := h
  unfold PeekReader.takeNext at hK ⊢
  by_cases hp : p.peeked.isSome
  · rw [if_pos hp]
    exact ⟨⟨l, hl⟩, he⟩
  · have hp : p.peeked = none := by simpa using hp
    rw [if_neg (by simp [hp])] at hK ⊢
    have scan : ∀ (o : Out ReaderError Unit) (r : Reader σ),
        Kept J { p with reader := r } out →
        Kept J (match o with
          | .ok () => ((.ok (), { peeked := r.queue.pop.1, reader := { r with queue := r.queue.pop.2 } }) :
              Out ReaderError Unit × PeekReader σ)
          | o => (o, { p with reader := r })).2 out := by
      intro o r hr
      cases o with
      | ok u =>
        obtain ⟨⟨l, hl⟩, he⟩ := hr
        obtain ⟨l', -, hl'⟩ := Queue.rep_pop hl
        refine ⟨⟨l', hl'⟩, ?_⟩
        simp only at he ⊢
        rw [hp, intoSortedVec_pop r.queue] at he
        simpa using he
      | err e => exact hr
      | panic => exact hr
      | diverge => exact hr
    have outc : ∀ (o : Out ReaderError Unit) (r : Reader σ),
        (match o with
          | .ok () => ((.ok (), { peeked := r.queue.pop.1, reader := { r with queue := r.queue.pop.2 } }) :
              Out ReaderError Unit × PeekReader σ)
          | o => (o, { p with reader := r })).1 = o := by
      intro o r; cases o <;> rfl
    dsimp only at hK ⊢
    by_cases hq : p.reader.queue.isEmpty
    · rw [if_pos hq] at hK ⊢
      have hK : K (p.reader.scanTokens drive).1 := by
        have := outc (p.reader.scanTokens drive).1 (p.reader.scanTokens drive).2
        exact this ▸ hK
      refine scan _ _ ?_
      have hnil : l = [] := by
        have := hl.len
        have h0 : p.reader.queue.len = 0 := by simpa [Queue.isEmpty, Queue.len] using hq
        rw [h0] at this
        exact List.length_eq_zero_iff.mp this.symm
      subst hnil
      have hvec : p.reader.queue.intoSortedVec = [] := by
        have := Queue.drain_stable _ _ _ hl (Nat.zero_le (p.reader.queue.len + 1))
        exact List.perm_nil.mp this.perm
      rw [hvec, List.append_nil] at he
      have hrep := Queue.rep_foldl hl (drive p.reader.src).2.1
      rw [List.nil_append] at hrep
      have hst : ((drive p.reader.src).2.1.foldl Queue.push p.reader.queue).intoSortedVec =
          deliver (drive p.reader.src).2.1 :=
        deliver_unique (Queue.drain_stable _ _ _ hrep (by rw [hrep.len]; omega))
      have hlog : drive p.reader.src = ((drive p.reader.src).1, (drive p.reader.src).2.1,
        (drive p.reader.src).2.2) := rfl
      unfold Reader.scanTokens at hK ⊢
      dsimp only at hK ⊢
      have hstep := hJ _ _ _ _ _ he hlog
      generalize hd : (drive p.reader.src).2.1 = b at hstep hst hrep
      generalize hs : (drive p.reader.src).2.2 = s' at hstep
      generalize ho : (drive p.reader.src).1 = o at hstep
      rw [show drive p.reader.src = (o, b, s') by rw [hlog, ho, hd, hs]] at hK ⊢
      have hKo : K o := by cases o <;> exact hK
      have := hstep hKo
      have hvec' : (b.foldl Queue.push p.reader.queue).intoSortedVec = deliver b := hst
      cases o with
      | _ => exact ⟨⟨_, hrep⟩, by simp only; rw [hvec']; exact this⟩
    · rw [if_neg hq]
      exact scan (.ok ()) p.reader ⟨⟨l, hl⟩, he⟩

theorem kept_peek (hJ : ∀ s D o b s', J s D → drive s = (o, b, s') → K o → J s' (D ++ deliver b))
    {p : PeekReader σ} {out : List TokenEntry} (h : Kept J p out)
    (hK : K (p.peek drive).1.void) : Kept J (p.peek drive).2 out := by
  have ht := kept_takeNext hJ h
  unfold PeekReader.peek at hK ⊢
  split
  · exact h
  · split
    · rename_i hp hx
      rw [hp] at hK
      simp only [hx, ↓reduceIte] at hK
      cases he : p.takeNext drive with
      | mk o q =>
        rw [he] at ht hK
        cases o <;> exact ht hK
    · exact h

theorem kept_pop (hJ : ∀ s D o b s', J s D → drive s = (o, b, s') → K o → J s' (D ++ deliver b))
    {p : PeekReader σ} {out : List TokenEntry} (h : Kept J p out)
    (hK : K (p.pop drive).1.void) :
    Kept J (p.pop drive).2 (out ++ handed [(.pop, (p.pop drive).1)]) := by
  have mv : ∀ {p : PeekReader σ}, Kept J p out →
      Kept J { p with peeked := none } (out ++ handed [(.pop, .ok p.peeked)]) := by
    rintro p ⟨hl, he⟩
    refine ⟨hl, ?_⟩
    simp only
    cases hp : p.peeked <;> rw [hp] at he <;> simpa [handed] using he
  have stay : ∀ {p : PeekReader σ} {o : Out ReaderError (Option TokenEntry)},
      Kept J p out → (∀ e, o ≠ .ok (some e)) → Kept J p (out ++ handed [(.pop, o)]) := by
    intro p o h ho
    have : handed [(ROp.pop, o)] = [] := by
      cases o with
      | ok r =>
        cases r with
        | none => rfl
        | some e => exact absurd rfl (ho e)
      | _ => rfl
    rw [this, List.append_nil]
    exact h
  have ht := kept_takeNext hJ h
  unfold PeekReader.pop at hK ⊢
  split
  · next e hp =>
    have := mv h
    rw [hp] at this
    exact this
  · split
    · rename_i hp hx
      rw [hp] at hK
      simp only [hx, ↓reduceIte] at hK
      cases he : p.takeNext drive with
      | mk o q =>
        rw [he] at ht hK
        cases o with
        | ok u => exact mv (ht hK)
        | err e => exact stay (ht hK) (by simp)
        | panic => exact stay (ht hK) (by simp)
        | diverge => exact stay (ht hK) (by simp)
    · exact stay h (by simp)

theorem kept_run (hJ : ∀ s D o b s', J s D → drive s = (o, b, s') → K o → J s' (D ++ deliver b))
    {ops : List ROp} {p : PeekReader σ} {out : List TokenEntry} (h : Kept J p out)
    (hK : ∀ x ∈ (runOps drive ops p).1, K x.2.void) :
    Kept J (runOps drive ops p).2 (out ++ handed (runOps drive ops p).1) := by
  induction ops generalizing p out with
  | nil => simpa [runOps, handed] using h
  | cons op ops ih =>
    cases op with
    | peek =>
      simp only [runOps, ROp.run, List.mem_cons, forall_eq_or_imp] at hK
      have := ih (kept_peek hJ h hK.1) hK.2
      simpa [runOps, ROp.run, handed] using this
    | pop =>
      simp only [runOps, ROp.run, List.mem_cons, forall_eq_or_imp] at hK
      have := ih (kept_pop hJ h hK.1) hK.2
      rw [List.append_assoc] at this
      have hc : handed (runOps drive (.pop :: ops) p).1 =
          handed [(.pop, (p.pop drive).1)] ++
            handed (runOps drive ops (p.pop drive).2).1 := handed_cons _ _
      rw [hc]
      exact this

/-- Whatever every successful drive keeps true of the source and of all it produced is true, after
any history of calls, of the source and of a list the tokens handed out begin. -/
theorem reader_keeps (hJ : ∀ s D o b s', J s D → drive s = (o, b, s') → K o → J s' (D ++ deliver b))
    {src : σ} (h0 : J src []) (ops : List ROp)
    (hK : ∀ x ∈ (runOps drive ops (PeekReader.new src)).1, K x.2.void) :
    ∃ D, J (runOps drive ops (PeekReader.new src)).2.reader.src D ∧
      handed (runOps drive ops (PeekReader.new src)).1 <+: D := by
  have h : Kept J (PeekReader.new src) [] := ⟨⟨[], Queue.rep_new⟩, h0⟩
  have := kept_run hJ h hK
  exact ⟨_, this.2, by simp⟩

/-- The tokens handed out, then the peeked one, then the queued ones are all that was produced. -/
theorem reader_kept (hJ : ∀ s D o b s', J s D → drive s = (o, b, s') → K o → J s' (D ++ deliver b))
    {src : σ} (h0 : J src []) (ops : List ROp)
    (hK : ∀ x ∈ (runOps drive ops (PeekReader.new src)).1, K x.2.void) :
    Kept J (runOps drive ops (PeekReader.new src)).2 (handed (runOps drive ops (PeekReader.new src)).1) := by
  have h : Kept J (PeekReader.new src) [] := ⟨⟨[], Queue.rep_new⟩, h0⟩
  have := kept_run hJ h hK
  rwa [List.nil_append] at this

/-- What the reader has and did not hand out. -/
def waiting (p : PeekReader σ) : List TokenEntry :=
  p.peeked.toList ++ p.reader.queue.intoSortedVec

theorem foldl_push_length (b : List TokenEntry) (q : Queue TokenEntry) :
    (b.foldl Queue.push q).len = q.len + b.length := by
  induction b generalizing q with
  | nil => rfl
  | cons e b ih =>
    rw [List.foldl_cons, ih]
    simp [Queue.push, Queue.len]
    omega

theorem intoSortedVec_empty {q : Queue TokenEntry} (h : q.isEmpty = true) : q.intoSortedVec = [] := by
  obtain ⟨heap, n⟩ := q
  simp only [Queue.isEmpty, List.isEmpty_iff] at h
  subst h
  rfl

/-- What a successful pop does: it takes what is waiting, or asks the source, or the reader is
exhausted. -/
theorem pop_cases {p p' : PeekReader σ} {r : Option TokenEntry} (h : p.pop drive = (.ok r, p')) :
    (∃ e, r = some e ∧ p'.reader.src = p.reader.src ∧ p'.reader.exhausted = p.reader.exhausted ∧
      waiting p = e :: waiting p') ∨
    (waiting p = [] ∧ ∃ b, drive p.reader.src = (.ok (), b, p'.reader.src) ∧
      p'.reader.exhausted = b.isEmpty) ∨
    (waiting p = [] ∧ p.reader.isExhausted = true) := by
  unfold PeekReader.pop at h
  cases hp : p.peeked with
  | some e =>
    rw [hp] at h
    simp only [Prod.mk.injEq, Out.ok.injEq] at h
    obtain ⟨rfl, rfl⟩ := h
    exact .inl ⟨e, rfl, rfl, rfl, by simp [waiting, hp]⟩
  | none =>
    rw [hp] at h
    simp only at h
    by_cases hx : p.reader.isExhausted = true
    · refine .inr (.inr ⟨?_, hx⟩)
      simp only [Reader.isExhausted, Bool.and_eq_true] at hx
      simp [waiting, hp, intoSortedVec_empty hx.2]
    · simp only [hx, Bool.not_false, ↓reduceIte] at h
      unfold PeekReader.takeNext at h
      simp only [hp, Option.isSome_none, Bool.false_eq_true, ↓reduceIte] at h
      by_cases hq : p.reader.queue.isEmpty = true
      · refine .inr (.inl ⟨by simp [waiting, hp, intoSortedVec_empty hq], ?_⟩)
        simp only [hq, ↓reduceIte, Reader.scanTokens] at h
        have hlen : p.reader.queue.len = 0 := by simpa [Queue.isEmpty, Queue.len] using hq
        generalize drive p.reader.src = d at h
        obtain ⟨o, b, s'⟩ := d
        cases o with
        | ok u =>
          simp only [Prod.mk.injEq] at h
          obtain ⟨-, rfl⟩ := h
          refine ⟨b, rfl, ?_⟩
          simp only
          rw [foldl_push_length, hlen]
          cases b <;> simp
        | err e => simp at h
        | panic => simp at h
        | diverge => simp at h
      · have hq' : p.reader.queue.isEmpty = false := by simpa using hq
        simp only [hq', Bool.false_eq_true, ↓reduceIte, Prod.mk.injEq, Out.ok.injEq] at h
        obtain ⟨h1, rfl⟩ := h
        have hv := intoSortedVec_pop p.reader.queue
        cases r with
        | some e =>
          rw [h1] at hv
          exact .inl ⟨e, rfl, rfl, rfl, by simpa [waiting, hp] using hv⟩
        | none =>
          have : p.reader.queue.heap = [] := by
            unfold Queue.pop at h1
            cases hpl : Queue.popLeast p.reader.queue.heap with
            | none => exact Queue.popLeast_none hpl
            | some x => rw [hpl] at h1; simp at h1
          simp [Queue.isEmpty, this] at hq'

/-- A call reports what the source reports, if it asks it, and succeeds if it does not. -/
theorem op_result (op : ROp) (p : PeekReader σ) :
    (op.run drive p).1.void = .ok () ∨ (op.run drive p).1.void = (drive p.reader.src).1 := by
  have ht : (p.takeNext drive).1 = .ok () ∨ (p.takeNext drive).1 = (drive p.reader.src).1 := by
    unfold PeekReader.takeNext
    split
    · exact .inl rfl
    · dsimp only
      by_cases hq : p.reader.queue.isEmpty
      · rw [if_pos hq]
        have : ∀ (o : Out ReaderError Unit) (r : Reader σ),
          (match o with
            | .ok () => ((.ok (), { peeked := r.queue.pop.1, reader := { r with queue := r.queue.pop.2 } }) :
                Out ReaderError Unit × PeekReader σ)
            | o => (o, { p with reader := r })).1 = o := by
          intro o r; cases o <;> rfl
        refine .inr ((this _ _).trans ?_)
        unfold Reader.scanTokens
        dsimp only
        generalize drive p.reader.src = r
        obtain ⟨o, b, s⟩ := r
        cases o <;> rfl
      · rw [if_neg hq]
        exact .inl rfl
  cases op with
  | peek =>
    simp only [ROp.run]
    unfold PeekReader.peek
    split
    · exact .inl rfl
    · split
      · cases he : p.takeNext drive with
        | mk o q => rw [he] at ht; cases o <;> exact ht
      · exact .inl rfl
  | pop =>
    simp only [ROp.run]
    unfold PeekReader.pop
    split
    · exact .inl rfl
    · split
      · cases he : p.takeNext drive with
        | mk o q => rw [he] at ht; cases o <;> exact ht
      · exact .inl rfl

/-- If the source never reports anything but `K` from the states it can get into, neither does
the reader. -/
theorem reader_reports (hok : K (.ok ()))
    (hJ : ∀ s D o b s', J s D → drive s = (o, b, s') → K o ∧ J s' (D ++ deliver b))
    {src : σ} (h0 : J src []) (ops : List ROp) :
    ∀ x ∈ (runOps drive ops (PeekReader.new src)).1, K x.2.void := by
  have run : ∀ (ops : List ROp) (p : PeekReader σ) (out : List TokenEntry), Kept J p out →
      ∀ x ∈ (runOps drive ops p).1, K x.2.void := by
    intro ops
    induction ops with
    | nil => intro p out _ x hx; simp [runOps] at hx
    | cons op ops ih =>
      intro p out h
      have hK : K (op.run drive p).1.void := by
        rcases op_result (drive := drive) op p with h1 | h1
        · rw [h1]; exact hok
        · rw [h1]
          obtain ⟨D, hD⟩ : ∃ D, J p.reader.src D := ⟨_, h.2⟩
          exact (hJ _ _ _ _ _ hD rfl).1
      have hnext : ∃ out', Kept J (op.run drive p).2 out' := by
        cases op with
        | peek => exact ⟨_, kept_peek (fun s D o b s' a b _ => (hJ s D o _ s' a b).2) h hK⟩
        | pop => exact ⟨_, kept_pop (fun s D o b s' a b _ => (hJ s D o _ s' a b).2) h hK⟩
      obtain ⟨out', h'⟩ := hnext
      intro x hx
      simp only [runOps, List.mem_cons] at hx
      rcases hx with rfl | hx
      · exact hK
      · exact ih _ _ h' x hx
  exact run ops _ [] ⟨⟨[], Queue.rep_new⟩, h0⟩

end Yary
