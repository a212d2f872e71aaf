import Verif.Spec.Reader
import Verif.Spec.Calls
import Verif.Proof.Peek
import Verif.Proof.Queue

/-! # C08, C35: peeking and exhaustion of a reader -/

namespace Yary

open Spec

variable {σ : Type} {drive : Drive σ}

/-! ### C08 -/

theorem takeNext_peeked_none {p : PeekReader σ} (h : p.peeked = none) {p' : PeekReader σ}
    (ht : p.takeNext drive = (.ok (), p')) (hn : p'.peeked = none) :
    p'.reader.isExhausted = true := by
  unfold PeekReader.takeNext at ht
  rw [if_neg (by simp [h])] at ht
  dsimp only at ht
  by_cases hq : p.reader.queue.isEmpty
  · rw [if_pos hq] at ht
    have hlen : p.reader.queue.len = 0 := by
      simpa [Queue.isEmpty, Queue.len] using hq
    unfold Reader.scanTokens at ht
    dsimp only at ht
    cases hd : drive p.reader.src with
    | mk o r =>
      obtain ⟨pushed, src⟩ := r
      rw [hd] at ht
      cases o with
      | ok u =>
        simp only [Prod.mk.injEq, true_and] at ht
        subst ht
        simp only at hn
        have hpop := hn
        unfold Queue.pop at hpop
        split at hpop
        · simp at hpop
        · next hl =>
          have := Queue.popLeast_none hl
          have hq2 : (pushed.foldl Queue.push p.reader.queue).pop.2 =
              pushed.foldl Queue.push p.reader.queue := by
            unfold Queue.pop
            rw [hl]
          simp [Reader.isExhausted, hq2, Queue.isEmpty, this, Queue.len, hlen]
          simpa [Queue.len] using hlen
      | err e => simp at ht
      | panic => simp at ht
      | diverge => simp at ht
  · rw [if_neg hq] at ht
    simp only [Prod.mk.injEq, true_and] at ht
    subst ht
    simp only at hn
    unfold Queue.pop at hn
    split at hn
    · simp at hn
    · next hl =>
      have := Queue.popLeast_none hl
      simp [Queue.isEmpty, this] at hq

/-- **C08**, one call: a successful peek returns what a pop returns, leaves the reader so that
peeking again changes nothing, and the pop after it ends in the same reader as the pop without
it. A failing peek fails exactly as the pop does. -/
theorem C08_peek_is_pop (p : PeekReader σ) :
    (p.peek drive).1 = (p.pop drive).1 ∧
    (∀ r, (p.peek drive).1 = .ok r →
      (p.peek drive).2.peek drive = p.peek drive ∧
      (p.peek drive).2.pop drive = p.pop drive) := by
  cases hp : p.peeked with
  | some e => simp [PeekReader.peek, PeekReader.pop, hp]
  | none =>
    by_cases hx : p.reader.isExhausted
    · simp [PeekReader.peek, PeekReader.pop, hp, hx]
    · have hx' : p.reader.isExhausted = false := by simpa using hx
      have h1 : p.peek drive = (match p.takeNext drive with
          | (.ok (), p) => (.ok p.peeked, p)
          | (.err e, p) => (.err e, p)
          | (.panic, p) => (.panic, p)
          | (.diverge, p) => (.diverge, p)) := by
        simp only [PeekReader.peek, hp, hx', Bool.not_false, if_true]
        rfl
      have h2 : p.pop drive = (match p.takeNext drive with
          | (.ok (), p) => (.ok p.peeked, { p with peeked := none })
          | (.err e, p) => (.err e, p)
          | (.panic, p) => (.panic, p)
          | (.diverge, p) => (.diverge, p)) := by
        simp only [PeekReader.pop, hp, hx', Bool.not_false, if_true]
        rfl
      rw [h1, h2]
      cases ht : p.takeNext drive with
      | mk o p' =>
        cases o with
        | ok u =>
          refine ⟨rfl, fun r hr => ?_⟩
          cases hp' : p'.peeked with
          | some e => simp [PeekReader.peek, PeekReader.pop, hp']
          | none =>
            have hex := takeNext_peeked_none hp ht hp'
            obtain ⟨pk, rd⟩ := p'
            simp only at hp' hex
            subst hp'
            simp [PeekReader.peek, PeekReader.pop, hex]
        | err e => simp
        | panic => simp
        | diverge => simp

/-- `p` is `q`, or `q` after a successful peek. -/
def Peeked (drive : Drive σ) (p q : PeekReader σ) : Prop :=
  p = q ∨ ∃ r, q.peek drive = (.ok r, p)

theorem peeked_pop {p q : PeekReader σ} (h : Peeked drive p q) : p.pop drive = q.pop drive := by
  rcases h with rfl | ⟨r, h⟩
  · rfl
  · have := (C08_peek_is_pop (drive := drive) q).2 r (by rw [h])
    rw [h] at this
    exact this.2

theorem peeked_peek {p q p' : PeekReader σ} {r : Option TokenEntry} (h : Peeked drive p q)
    (hp : p.peek drive = (.ok r, p')) : Peeked drive p' q := by
  rcases h with rfl | ⟨r', h⟩
  · exact .inr ⟨r, hp⟩
  · have := (C08_peek_is_pop (drive := drive) q).2 r' (by rw [h])
    rw [h] at this
    rw [this.1] at hp
    simp only [Prod.mk.injEq] at hp
    exact .inr ⟨r', by rw [h]; simp [hp.2]⟩

theorem runOps_peeks {ops : List ROp} {p q : PeekReader σ} (h : Peeked drive p q)
    (hok : ∀ x ∈ (runOps drive ops p).1, x.1 = .peek → ∃ r, x.2 = .ok r) :
    pops (runOps drive ops p).1 = (runOps drive (ops.filter (· == .pop)) q).1 := by
  induction ops generalizing p q with
  | nil => rfl
  | cons op ops ih =>
    cases op with
    | peek =>
      have hcons : (runOps drive (.peek :: ops) p).1 =
        (.peek, (p.peek drive).1) :: (runOps drive ops (p.peek drive).2).1 := rfl
      rw [hcons] at hok ⊢
      obtain ⟨r, hr⟩ := hok (.peek, (p.peek drive).1) (by simp) rfl
      have hp : p.peek drive = (.ok r, (p.peek drive).2) := Prod.ext hr rfl
      have := ih (peeked_peek h hp) fun x hx => hok x (by simp [hx])
      simpa [pops] using this
    | pop =>
      have hcons : ∀ ops (p : PeekReader σ), (runOps drive (.pop :: ops) p).1 =
        (.pop, (p.pop drive).1) :: (runOps drive ops (p.pop drive).2).1 := fun _ _ => rfl
      rw [hcons] at hok
      have hf : (ROp.pop :: ops).filter (· == .pop) = .pop :: ops.filter (· == .pop) := by simp
      rw [hcons, hf, hcons]
      have hpop := peeked_pop h
      have := ih (p := (p.pop drive).2) (q := (q.pop drive).2) (.inl (by rw [hpop]))
        fun x hx => hok x (by simp [hx])
      rw [← this, hpop]
      simp [pops]

/-- **C08**, histories: as long as no peek fails, the pops of any history report exactly what they
would report without the peeks. -/
theorem C08_peeks_change_nothing (ops : List ROp) (p : PeekReader σ)
    (hok : ∀ x ∈ (runOps drive ops p).1, x.1 = .peek → ∃ r, x.2 = .ok r) :
    pops (runOps drive ops p).1 = (runOps drive (ops.filter (· == .pop)) p).1 :=
  runOps_peeks (.inl rfl) hok

example : ∀ x ∈ (runOps listDrive [.peek, .peek, .pop, .peek, .pop, .pop, .peek]
      (PeekReader.new [⟨.Token .Key, 3⟩, ⟨.Token .Value, 4⟩])).1,
    x.1 = .peek → ∃ r, x.2 = .ok r := by
  intro x hx _
  have : ∀ x ∈ (runOps listDrive [.peek, .peek, .pop, .peek, .pop, .pop, .peek]
      (PeekReader.new [⟨.Token .Key, 3⟩, ⟨.Token .Value, 4⟩])).1,
      (match x.2 with | .ok _ => true | _ => false) = true := by decide +kernel
  have := this x hx
  split at this
  · next r h => exact ⟨r, h⟩
  · simp at this

/-- **C08**, exhaustion: an exhausted reader with nothing peeked returns `None` for both and is
left alone. -/
theorem C08_exhausted (p : PeekReader σ) (h : p.reader.isExhausted = true) (hp : p.peeked = none) :
    p.peek drive = (.ok none, p) ∧ p.pop drive = (.ok none, p) := by
  simp [PeekReader.peek, PeekReader.pop, h, hp]

example : (runOps listDrive [.pop, .pop] (PeekReader.new [⟨.Token .Key, 3⟩])).2.reader.isExhausted
    = true := by decide +kernel

/-! ### C35 -/

/-- **C35**, `None` means exhausted: when a pop returns `None`, the reader is exhausted, and every
later pop returns `None` without asking the source. -/
theorem C35_none_is_final (p p' : PeekReader σ) (h : p.pop drive = (.ok none, p')) :
    p'.reader.isExhausted = true ∧ p'.peeked = none ∧ p'.pop drive = (.ok none, p') := by
  cases hp : p.peeked with
  | some e => simp [PeekReader.pop, hp] at h
  | none =>
    have key : p'.reader.isExhausted = true ∧ p'.peeked = none := by
      by_cases hx : p.reader.isExhausted
      · simp [PeekReader.pop, hp, hx] at h
        subst h
        exact ⟨hx, hp⟩
      · have hx' : p.reader.isExhausted = false := by simpa using hx
        simp only [PeekReader.pop, hp, hx', Bool.not_false, if_true] at h
        cases ht : p.takeNext drive with
        | mk o q =>
          rw [ht] at h
          cases o with
          | ok u =>
            simp only [Prod.mk.injEq, Out.ok.injEq] at h
            have := takeNext_peeked_none hp ht h.1
            rw [← h.2]
            exact ⟨this, rfl⟩
          | err e => simp at h
          | panic => simp at h
          | diverge => simp at h
    exact ⟨key.1, key.2, (C08_exhausted p' key.1 key.2).2⟩

theorem intoSortedVec_pop {α : Type} [Ord α] [Std.TransOrd α] (q : Queue α) :
    q.intoSortedVec = q.pop.1.toList ++ q.pop.2.intoSortedVec := by
  have hlen : q.pop.2.len + q.pop.1.toList.length = q.len := by
    unfold Queue.pop
    split
    · next e rest h => simpa [Queue.len] using (Queue.popLeast_some h).1.length_eq.symm
    · simp
  unfold Queue.intoSortedVec
  conv => lhs; unfold Queue.drain
  cases hp : q.pop with
  | mk r q' =>
    rw [hp] at hlen
    cases r with
    | none =>
      simp only [Option.toList, List.nil_append]
      unfold Queue.drain
      have : q' = q := by
        unfold Queue.pop at hp
        split at hp <;> simp at hp
        exact hp.symm
      rw [this, hp]
    | some x =>
      simp only [Option.toList, List.length_singleton] at hlen
      rw [← hlen]
      rfl

theorem sortedBatches_snoc {bs os : List (List TokenEntry)} {b o : List TokenEntry}
    (h : SortedBatches bs os) (hb : IsStableSort b o) : SortedBatches (bs ++ [b]) (os ++ [o]) := by
  induction h with
  | nil => exact .cons hb .nil
  | cons h t ih => exact .cons h ih

/-- Everything produced is handed out, peeked or still queued, in this order. -/
def Accounted (p : PeekReader (σ × List (List TokenEntry))) (out : List TokenEntry) : Prop :=
  (∃ l, p.reader.queue.Rep l) ∧ ∃ sorted, SortedBatches p.reader.src.2 sorted ∧
    out ++ p.peeked.toList ++ p.reader.queue.intoSortedVec = sorted.flatten

theorem accounted_takeNext {p : PeekReader (σ × List (List TokenEntry))} {out : List TokenEntry}
    (h : Accounted p out) : Accounted (p.takeNext (logged drive)).2 out := by
  obtain ⟨⟨l, hl⟩, sorted, hs, he⟩ := h
  unfold PeekReader.takeNext
  by_cases hp : p.peeked.isSome
  · rw [if_pos hp]
    exact ⟨⟨l, hl⟩, sorted, hs, he⟩
  · have hp : p.peeked = none := by simpa using hp
    rw [if_neg (by simp [hp])]
    -- after a possible scan
    have scan : ∀ (o : Out ReaderError Unit) (r : Reader (σ × List (List TokenEntry))),
        Accounted { p with reader := r } out →
        Accounted (match o with
          | .ok () => ((.ok (), { peeked := r.queue.pop.1, reader := { r with queue := r.queue.pop.2 } }) :
              Out ReaderError Unit × PeekReader (σ × List (List TokenEntry)))
          | o => (o, { p with reader := r })).2 out := by
      intro o r hr
      cases o with
      | ok u =>
        obtain ⟨⟨l, hl⟩, sorted, hs, he⟩ := hr
        obtain ⟨l', -, hl'⟩ := Queue.rep_pop hl
        refine ⟨⟨l', hl'⟩, sorted, hs, ?_⟩
        rw [← he]
        rw [hp, intoSortedVec_pop r.queue]
        simp
      | err e => exact hr
      | panic => exact hr
      | diverge => exact hr
    dsimp only
    by_cases hq : p.reader.queue.isEmpty
    · rw [if_pos hq]
      refine scan _ _ ?_
      have hnil : l = [] := by
        have := hl.len
        have h0 : p.reader.queue.len = 0 := by simpa [Queue.isEmpty, Queue.len] using hq
        rw [h0] at this
        exact List.length_eq_zero_iff.mp this.symm
      subst hnil
      have hvec : p.reader.queue.intoSortedVec = [] := by
        have := Queue.drain_stable _ _ _ hl (Nat.zero_le (p.reader.queue.len + 1))
        exact List.perm_nil.mp this.perm
      have hrep := Queue.rep_foldl hl (drive p.reader.src.1).2.1
      rw [List.nil_append] at hrep
      have hst : IsStableSort (drive p.reader.src.1).2.1
          ((drive p.reader.src.1).2.1.foldl Queue.push p.reader.queue).intoSortedVec :=
        Queue.drain_stable _ _ _ hrep (by rw [hrep.len]; omega)
      have hsnoc := sortedBatches_snoc hs hst
      have heq : out ++ p.peeked.toList ++
          ((drive p.reader.src.1).2.1.foldl Queue.push p.reader.queue).intoSortedVec =
          (sorted ++ [((drive p.reader.src.1).2.1.foldl Queue.push p.reader.queue).intoSortedVec]).flatten := by
        rw [hvec, List.append_nil] at he
        rw [he]
        simp
      have hlog : logged drive p.reader.src = ((drive p.reader.src.1).1, (drive p.reader.src.1).2.1,
        ((drive p.reader.src.1).2.2, p.reader.src.2 ++ [(drive p.reader.src.1).2.1])) := rfl
      unfold Reader.scanTokens
      dsimp only
      rw [hlog]
      cases (drive p.reader.src.1).1 with
      | _ => exact ⟨⟨_, hrep⟩, _, hsnoc, heq⟩
    · rw [if_neg hq]
      exact scan (.ok ()) p.reader ⟨⟨l, hl⟩, sorted, hs, he⟩

theorem accounted_peek {p : PeekReader (σ × List (List TokenEntry))} {out : List TokenEntry}
    (h : Accounted p out) : Accounted (p.peek (logged drive)).2 out := by
  have ht := accounted_takeNext (drive := drive) h
  unfold PeekReader.peek
  split
  · exact h
  · split
    · split <;> rename_i he <;> rw [he] at ht <;> exact ht
    · exact h

theorem accounted_pop {p : PeekReader (σ × List (List TokenEntry))} {out : List TokenEntry}
    (h : Accounted p out) :
    Accounted (p.pop (logged drive)).2
      (out ++ handed [(.pop, (p.pop (logged drive)).1)]) := by
  have mv : ∀ {p : PeekReader (σ × List (List TokenEntry))}, Accounted p out →
      Accounted { p with peeked := none } (out ++ handed [(.pop, .ok p.peeked)]) := by
    rintro p ⟨hl, sorted, hs, he⟩
    refine ⟨hl, sorted, hs, ?_⟩
    rw [← he]
    cases p.peeked <;> simp [handed]
  have stay : ∀ {p : PeekReader (σ × List (List TokenEntry))} {o : Out ReaderError (Option TokenEntry)},
      Accounted p out → (∀ e, o ≠ .ok (some e)) → Accounted p (out ++ handed [(.pop, o)]) := by
    intro p o h ho
    have : handed [(ROp.pop, o)] = [] := by
      cases o with
      | ok r =>
        cases r with
        | none => rfl
        | some e => exact absurd rfl (ho e)
      | _ => rfl
    rw [this, List.append_nil]
    exact h
  have ht := accounted_takeNext (drive := drive) h
  unfold PeekReader.pop
  split
  · next e hp =>
    have := mv h
    rw [hp] at this
    exact this
  · split
    · cases he : p.takeNext (logged drive) with
      | mk o q =>
        rw [he] at ht
        cases o with
        | ok u => exact mv ht
        | err e => exact stay ht (by simp)
        | panic => exact stay ht (by simp)
        | diverge => exact stay ht (by simp)
    · exact stay h (by simp)

theorem handed_cons (x : ROp × Out ReaderError (Option TokenEntry))
    (h : List (ROp × Out ReaderError (Option TokenEntry))) :
    handed (x :: h) = handed [x] ++ handed h := by
  obtain ⟨op, o⟩ := x
  cases op with
  | peek => rfl
  | pop =>
    cases o with
    | ok r => cases r <;> rfl
    | _ => rfl

theorem accounted_run {ops : List ROp} {p : PeekReader (σ × List (List TokenEntry))}
    {out : List TokenEntry} (h : Accounted p out) :
    Accounted (runOps (logged drive) ops p).2 (out ++ handed (runOps (logged drive) ops p).1) := by
  induction ops generalizing p out with
  | nil => simpa [runOps, handed] using h
  | cons op ops ih =>
    cases op with
    | peek =>
      have := ih (accounted_peek (drive := drive) h)
      simpa [runOps, ROp.run, handed] using this
    | pop =>
      have := ih (accounted_pop (drive := drive) h)
      rw [List.append_assoc] at this
      have hc : handed (runOps (logged drive) (.pop :: ops) p).1 =
          handed [(.pop, (p.pop (logged drive)).1)] ++
            handed (runOps (logged drive) ops (p.pop (logged drive)).2).1 := handed_cons _ _
      rw [hc]
      exact this

/-- **C35.** For every source and every history of peeks and pops (errors included): the entries
handed out so far, then the peeked one, then those waiting in the queue are exactly the entries
the source produced, batch by batch, each batch stably sorted by position. So nothing is lost,
duplicated or overtaken by a later batch, and when the reader says it is exhausted and nothing is
peeked, everything produced was handed out. -/
theorem C35_handed_out_once (src : σ) (ops : List ROp) :
    let r := runOps (logged drive) ops (PeekReader.new (src, []))
    ∃ sorted, SortedBatches r.2.reader.src.2 sorted ∧
      handed r.1 ++ r.2.peeked.toList ++ r.2.reader.queue.intoSortedVec = sorted.flatten ∧
      (r.2.reader.isExhausted = true → r.2.peeked = none → handed r.1 = sorted.flatten) := by
  intro r
  have h0 : Accounted (PeekReader.new (src, ([] : List (List TokenEntry)))) [] :=
    ⟨⟨[], Queue.rep_new⟩, [], .nil, rfl⟩
  obtain ⟨⟨l, hl⟩, sorted, hs, he⟩ := accounted_run (drive := drive) (ops := ops) h0
  rw [List.nil_append] at he
  refine ⟨sorted, hs, he, ?_⟩
  intro hx hp
  have hq : r.2.reader.queue.isEmpty = true := by
    simp only [Reader.isExhausted, Bool.and_eq_true] at hx
    exact hx.2
  have hvec : r.2.reader.queue.intoSortedVec = [] := by
    have := hl.len
    have h0 : r.2.reader.queue.len = 0 := by simpa [Queue.isEmpty, Queue.len] using hq
    have hn : l = [] := List.length_eq_zero_iff.mp (by rw [← this]; exact h0)
    subst hn
    have := Queue.drain_stable _ _ _ hl (Nat.zero_le (r.2.reader.queue.len + 1))
    exact List.perm_nil.mp this.perm
  have he' : handed r.1 ++ r.2.peeked.toList ++ r.2.reader.queue.intoSortedVec =
    sorted.flatten := he
  rw [hp, hvec] at he'
  simpa using he'

/-- A source whose first batch is out of order and whose second ends in an error. -/
def batchDrive : Drive Nat := fun n =>
  match n with
  | 0 => (.ok (), [⟨.Token .Value, 5⟩, ⟨.Token .Key, 3⟩, ⟨.Token .BlockEnd, 5⟩], 1)
  | 1 => (.err (.Scanner .InvalidTab), [⟨.Token .StreamEnd, 6⟩], 2)
  | n => (.ok (), [], n)

example :
    let r := runOps (logged batchDrive) [.peek, .pop, .pop, .pop, .peek, .pop, .pop]
      (PeekReader.new (0, []))
    handed r.1 = [⟨.Token .Key, 3⟩, ⟨.Token .Value, 5⟩, ⟨.Token .BlockEnd, 5⟩,
      ⟨.Token .StreamEnd, 6⟩] ∧ r.2.reader.isExhausted = true ∧ r.2.peeked = none := by
  decide +kernel

end Yary
