import Verif.Proof.Moved.Loop
import Verif.Proof.Fuel

/-! # The reader and the parser on a text with empty lines before it -/

namespace Yary

/-- An entry of the queue further on. -/
def QueueEntry.mv (w l i : Nat) (e : QueueEntry TokenEntry) : QueueEntry TokenEntry := ⟨e.entry.mv w l, e.mark + i⟩

/-- The queue further on. -/
def Queue.mv (w l i : Nat) (q : Queue TokenEntry) : Queue TokenEntry := ⟨q.heap.map (QueueEntry.mv w l i), q.increment + i⟩

namespace Moved

open Spec

variable {opts : SFlags} {w l i : Nat}

theorem compare_mv (a b : TokenEntry) : compare (a.mv w l) (b.mv w l) = compare a b := by
  show compareOfLessAndEq (a.readAt + w) (b.readAt + w) = compareOfLessAndEq a.readAt b.readAt
  unfold compareOfLessAndEq
  simp only [Nat.add_lt_add_iff_right, Nat.add_right_cancel_iff]

theorem cmp_mv (a b : QueueEntry TokenEntry) : (a.mv w l i).cmp (b.mv w l i) = a.cmp b := by
  have h : compare (a.mark + i) (b.mark + i) = compare a.mark b.mark := by
    show compareOfLessAndEq (a.mark + i) (b.mark + i) = compareOfLessAndEq a.mark b.mark
    unfold compareOfLessAndEq
    simp only [Nat.add_lt_add_iff_right, Nat.add_right_cancel_iff]
  unfold QueueEntry.cmp
  simp only [QueueEntry.mv, compare_mv, h]

theorem popLeast_mv : ∀ h : List (QueueEntry TokenEntry), Queue.popLeast (h.map (QueueEntry.mv w l i)) =
    (Queue.popLeast h).map fun x => (x.1.mv w l i, x.2.map (QueueEntry.mv w l i))
  | [] => rfl
  | e :: es => by
    rw [List.map_cons, Queue.popLeast, Queue.popLeast, popLeast_mv es]
    cases Queue.popLeast es with
    | none => rfl
    | some x =>
      obtain ⟨m, rest⟩ := x
      simp only [Option.map_some, cmp_mv]
      split <;> rfl

theorem pop_mv (q : Queue TokenEntry) : (q.mv w l i).pop = (q.pop.1.map (TokenEntry.mv w l), q.pop.2.mv w l i) := by
  unfold Queue.pop
  rw [show (q.mv w l i).heap = q.heap.map (QueueEntry.mv w l i) from rfl, popLeast_mv]
  cases Queue.popLeast q.heap <;> rfl

theorem pushAll_mv (es : List TokenEntry) : ∀ q : Queue TokenEntry, (es.map (TokenEntry.mv w l)).foldl Queue.push (q.mv w l i) = (es.foldl Queue.push q).mv w l i := by
  induction es with
  | nil => intro q; rfl
  | cons e es ih =>
    intro q
    rw [List.map_cons, List.foldl_cons, List.foldl_cons, ← ih (q.push e)]
    simp only [Queue.push, Queue.mv, List.map_cons, QueueEntry.mv, Nat.add_right_comm]

theorem len_mv (q : Queue TokenEntry) : (q.mv w l i).len = q.len := by simp [Queue.len, Queue.mv]

theorem isEmpty_mv (q : Queue TokenEntry) : (q.mv w l i).isEmpty = q.isEmpty := by
  obtain ⟨h, i⟩ := q
  cases h <;> rfl

/-- Readers of which the second is further on. -/
structure RR (F : Scanner → Scanner → Prop) (w l i : Nat) (p p' : PeekReader Scanner) : Prop where
  peeked : p'.peeked = p.peeked.map (TokenEntry.mv w l)
  src : F p.reader.src p'.reader.src
  queue : p'.reader.queue = p.reader.queue.mv w l i
  exhausted : p'.reader.exhausted = p.reader.exhausted

variable {V : Prop} {F : Scanner → Scanner → Prop} {d d' : Drive Scanner}

theorem takeNext_mv (hd : ∀ sc sc', F sc sc' → DP V w l F (d sc) (d' sc')) {p p' : PeekReader Scanner} (h : RR F w l i p p') :
    Pair (fun e => e = none → V) (RR F w l i) Eq (p.takeNext d) (p'.takeNext d') := by
  unfold PeekReader.takeNext
  have hp : p'.peeked.isSome = p.peeked.isSome := by rw [h.peeked]; cases p.peeked <;> rfl
  rw [hp]
  split
  · exact .ok rfl h
  · by_cases hq : p.reader.queue.isEmpty = true
    · have hq' : p'.reader.queue.isEmpty = true := by rw [h.queue, isEmpty_mv, hq]
      have hs := hd _ _ h.src
      unfold Reader.scanTokens
      rw [if_pos hq, if_pos hq']
      generalize d p.reader.src = x at hs ⊢
      generalize d' p'.reader.src = y at hs ⊢
      cases hs with
      | @ok a b s t _ hs =>
        obtain ⟨o, sc⟩ := s
        obtain ⟨o', sc'⟩ := t
        obtain ⟨h1, h2⟩ := hs
        dsimp only at h1 h2
        subst h1
        dsimp only
        rw [h.queue, pushAll_mv, pop_mv, len_mv, len_mv]
        exact .ok rfl ⟨rfl, h2, rfl, rfl⟩
      | @err e s t hs =>
        obtain ⟨o, sc⟩ := s
        obtain ⟨o', sc'⟩ := t
        exact .err (.inl (by intro h; cases h))
      | @panic s t =>
        obtain ⟨o, sc⟩ := s
        obtain ⟨o', sc'⟩ := t
        exact .panic
      | @diverge s r h =>
        obtain ⟨o, sc⟩ := s
        refine .diverge (h.imp_right fun h => ?_)
        obtain ⟨r, o', sc'⟩ := y
        cases h
        rfl
    · have hq' : ¬ p'.reader.queue.isEmpty = true := by rw [h.queue, isEmpty_mv]; exact hq
      rw [if_neg hq, if_neg hq']
      dsimp only
      rw [h.queue, pop_mv]
      exact .ok rfl ⟨rfl, h.src, rfl, h.exhausted⟩

theorem tied_mv (hd : ∀ sc sc', F sc sc' → DP V w l F (d sc) (d' sc')) : Tied V w l (RR F w l i) d d' := by
  have hpeek : ∀ p p', RR F w l i p p' → Pair (fun e => e = none → V) (RR F w l i) (fun a b => b = Option.map (TokenEntry.mv w l) a) (p.peek d) (p'.peek d') := by
    intro p p' h
    unfold PeekReader.peek Reader.isExhausted
    rw [h.peeked, h.exhausted, h.queue, isEmpty_mv]
    cases p.peeked with
    | some e => exact .ok rfl h
    | none =>
      dsimp only [Option.map_none]
      split
      · have ht := takeNext_mv hd h
        generalize p.takeNext d = x at ht ⊢
        generalize p'.takeNext d' = y at ht ⊢
        cases ht with
        | ok hq hs => exact .ok hs.peeked hs
        | err h => exact .err h
        | panic => exact .panic
        | diverge h => exact .diverge (h.imp_right fun h => by obtain ⟨o, t⟩ := y; cases h; rfl)
      · exact .ok rfl h
  have hpop : ∀ p p', RR F w l i p p' → Pair (fun e => e = none → V) (RR F w l i) (fun a b => b = Option.map (TokenEntry.mv w l) a) (p.pop d) (p'.pop d') := by
    intro p p' h
    unfold PeekReader.pop Reader.isExhausted
    rw [h.peeked, h.exhausted, h.queue, isEmpty_mv]
    cases p.peeked with
    | some e => exact .ok rfl ⟨rfl, h.src, h.queue, h.exhausted⟩
    | none =>
      dsimp only [Option.map_none]
      split
      · have ht := takeNext_mv hd h
        generalize p.takeNext d = x at ht ⊢
        generalize p'.takeNext d' = y at ht ⊢
        cases ht with
        | ok hq hs => exact .ok hs.peeked ⟨rfl, hs.src, hs.queue, hs.exhausted⟩
        | err h => exact .err (.inl (by intro h; cases h))
        | panic => exact .panic
        | diverge h => exact .diverge (h.imp_right fun h => by obtain ⟨o, t⟩ := y; cases h; rfl)
      · exact .ok rfl h
  intro op p p' h
  cases op
  · exact hpeek p p' h
  · exact hpop p p' h

/-- The second stream does what the first does, further on, up to and including a failure of the source. -/
theorem calls_mv {V : Prop} {σ τ : Type} {S : PeekReader σ → PeekReader τ → Prop} {d : Drive σ} {d' : Drive τ} (hT : Tied V w l S d d') {s s1 : PS σ}
    {os : List (Out ParseError (Option Event))} (h : Calls d s os s1) : ∀ {s' : PS τ}, PSR S s s' →
    ∃ os' s1', Calls d' s' os' s1' ∧ upToSource os' = (upToSource os).map (Further w l) := by
  induction h with
  | nil s => intro s' _; exact ⟨[], s', .nil _, rfl⟩
  | @cons s s2 s3 o os fuel h hd t ih =>
    intro s' h1
    have hr := nextEvent hT fuel _ _ h1
    rw [h] at hr
    generalize hy : Parser.nextEvent d' fuel s' = r' at hr
    cases hr with
    | ok hq hs =>
      obtain ⟨os', s1', h3, h4⟩ := ih hs
      refine ⟨_, s1', .cons fuel hy (fun h => by cases h) h3, ?_⟩
      rw [hq]
      simp [upToSource, h4, Further]
    | @err e _ _ hs =>
      cases he : fromSource e with
      | true => exact ⟨_, _, .cons fuel hy (fun h => by cases h) (.nil _), by simp [upToSource, he, Further]⟩
      | false =>
        rcases hs with hs | hs
        · rw [show fromSource e = true from hs] at he; cases he
        · obtain ⟨os', s1', h3, h4⟩ := ih hs
          exact ⟨_, s1', .cons fuel hy (fun h => by cases h) h3, by simp [upToSource, he, Further, h4]⟩
    | panic => exact ⟨_, _, .cons fuel hy (fun h => by cases h) (.nil _), rfl⟩
    | diverge h => exact absurd rfl hd

/-- The same of any calls of the second stream that are as many. -/
theorem calls_same {V : Prop} {σ τ : Type} {S : PeekReader σ → PeekReader τ → Prop} {d : Drive σ} {d' : Drive τ} (hT : Tied V w l S d d') {s s1 : PS σ}
    {os : List (Out ParseError (Option Event))} (h : Calls d s os s1) : ∀ {s' s1' : PS τ} {os' : List (Out ParseError (Option Event))}, PSR S s s' →
    Calls d' s' os' s1' → os'.length = os.length → upToSource os' = (upToSource os).map (Further w l) := by
  induction h with
  | nil s =>
    intro s' s1' os' _ _ hl
    rw [List.length_nil, List.length_eq_zero_iff] at hl
    subst hl
    rfl
  | @cons s s2 s3 o os fuel h hd t ih =>
    intro s' s1' os' h1 h' hl
    cases h' with
    | nil => simp at hl
    | @cons _ t2 _ o' os' fuel' g gd gt =>
      have hr := nextEvent hT fuel _ _ h1
      rw [h] at hr
      generalize hy : Parser.nextEvent d' fuel s' = r' at hr
      cases hr with
      | ok hq hs =>
        obtain ⟨rfl, rfl⟩ := Parser.nextEvent_unique g hy gd (fun h => by cases h)
        have := ih hs gt (by simpa using hl)
        rw [hq]
        simp [upToSource, this, Further]
      | @err e _ _ hs =>
        obtain ⟨rfl, rfl⟩ := Parser.nextEvent_unique g hy gd (fun h => by cases h)
        cases he : fromSource e with
        | true => simp [upToSource, he, Further]
        | false =>
          rcases hs with hs | hs
          · rw [show fromSource e = true from hs] at he; cases he
          · have := ih hs gt (by simpa using hl)
            simp [upToSource, he, Further, this]
      | panic =>
        obtain ⟨rfl, rfl⟩ := Parser.nextEvent_unique g hy gd (fun h => by cases h)
        rfl
      | diverge h => exact absurd rfl hd

/-- The first call of the source. -/
theorem drive_first {data : Str} : borrowDrive opts data {} = (.ok (), [⟨.Token (.StreamStart .UTF8), 0⟩], begun) := by
  have h : scanTokens { opts with extendable := false } data {} = (.ok (), begun, [⟨.Token (.StreamStart .UTF8), 0⟩]) := by
    show scanLoop { opts with extendable := false } data (data.length + 1 + 1 + 1) {} [] = _
    rw [loop_turn]
    show endTurn { opts with extendable := false } data (data.length + 1 + 1) (.ok (), ⟨begun, data, [⟨.Token (.StreamStart .UTF8), 0⟩]⟩) = _
    unfold endTurn
    dsimp only
    rw [Nat.sub_self, loop_turn]
    rfl
  unfold borrowDrive
  rw [h]

/-- What is left after the first event. -/
def afterStart : PS Scanner :=
  ⟨{ (Parser.new) with state := (Parser.new).state.setTop (.DocumentStart true true) }, ⟨none, ⟨begun, ⟨[], 1⟩, false⟩⟩⟩

/-- The first event. -/
theorem first_event {data : Str} (fuel : Nat) :
    Parser.nextEvent (borrowDrive opts data) (fuel + 1) (start {}) = (.ok (some ⟨0, 0, .StreamStart .UTF8⟩), afterStart) := by
  have hp : PeekReader.peek (borrowDrive opts data) (PeekReader.new {}) =
      (.ok (some ⟨.Token (.StreamStart .UTF8), 0⟩), ⟨some ⟨.Token (.StreamStart .UTF8), 0⟩, ⟨begun, ⟨[], 1⟩, false⟩⟩) := by
    simp only [PeekReader.peek, PeekReader.takeNext, PeekReader.new, Reader.new, Reader.scanTokens, drive_first, Reader.isExhausted]
    rfl
  have h1 : Parser.streamStart (borrowDrive opts data) (start {}) = (.ok (some ⟨0, 0, .StreamStart .UTF8⟩), afterStart) := by
    have h2 : PM.peekMaybe (borrowDrive opts data) (start {}) = (.ok (some ⟨.Token (.StreamStart .UTF8), 0⟩),
        ⟨Parser.new, ⟨some ⟨.Token (.StreamStart .UTF8), 0⟩, ⟨begun, ⟨[], 1⟩, false⟩⟩⟩) := by
      unfold PM.peekMaybe PM.onTokens
      rw [show (start ({} : Scanner)).tokens = PeekReader.new {} from rfl, hp]
      rfl
    have h3 : PM.peek (borrowDrive opts data) (start {}) = (.ok ⟨.Token (.StreamStart .UTF8), 0⟩,
        ⟨Parser.new, ⟨some ⟨.Token (.StreamStart .UTF8), 0⟩, ⟨begun, ⟨[], 1⟩, false⟩⟩⟩) := by
      unfold PM.peek
      simp only [Bind.bind, SO.bind, h2]
      rfl
    unfold Parser.streamStart
    simp only [Bind.bind, SO.bind, h3]
    rfl
  change SO.bind (Parser.streamStart (borrowDrive opts data)) (fun o => match o with
    | some ev => pure (some ev)
    | none => Parser.nextEventLoop (borrowDrive opts data) (fuel + 1) fuel) (start {}) = _
  unfold SO.bind
  rw [h1]
  rfl

/-- Empty lines before a text move what follows. -/
theorem lead {W B : Str} (hW : EmptyLines W) (hB : validUtf8 B = true) {os : List (Out ParseError (Option Event))} {s : PS Scanner}
    (h : Calls (borrowDrive opts B) (start {}) os s) :
    ∃ l os' s', Calls (borrowDrive opts (W ++ B)) (start {}) os' s' ∧ upToSource os' = furtherOn W.length l (upToSource os) := by
  obtain ⟨l, hd⟩ := drive_lead (opts := opts) hW hB
  refine ⟨l, ?_⟩
  cases h with
  | nil => exact ⟨[], _, .nil _, rfl⟩
  | @cons _ s2 _ o os fuel h hd' t =>
    cases fuel with
    | zero => cases h; exact absurd rfl hd'
    | succ fuel =>
      rw [first_event] at h
      cases h
      have hs : PSR (RR (From W l) W.length l 0) afterStart afterStart := ⟨rfl, rfl, .inr ⟨rfl, rfl⟩, rfl, rfl⟩
      obtain ⟨os', s', h1, h2⟩ := calls_mv (tied_mv hd) t hs
      exact ⟨_, s', .cons (fuel + 1) (first_event fuel) hd' h1, by simp [upToSource, furtherOn, h2]⟩

/-- And any calls over the text with these lines, as many as over the text, return what is thus moved. -/
theorem lead_same {W B : Str} (hW : EmptyLines W) (hB : validUtf8 B = true) : ∃ l, ∀ {os os' : List (Out ParseError (Option Event))} {s s' : PS Scanner},
    Calls (borrowDrive opts B) (start {}) os s → Calls (borrowDrive opts (W ++ B)) (start {}) os' s' → os'.length = os.length →
    upToSource os' = furtherOn W.length l (upToSource os) := by
  obtain ⟨l, hd⟩ := drive_lead (opts := opts) hW hB
  refine ⟨l, ?_⟩
  intro os os' s s' h h' hl
  cases h with
  | nil =>
    rw [List.length_nil, List.length_eq_zero_iff] at hl
    subst hl
    rfl
  | @cons _ s2 _ o os fuel h hd' t =>
    cases h' with
    | nil => simp at hl
    | @cons _ t2 _ o' os' fuel' g gd gt =>
      cases fuel with
      | zero => cases h; exact absurd rfl hd'
      | succ fuel =>
        cases fuel' with
        | zero => cases g; exact absurd rfl gd
        | succ fuel' =>
          rw [first_event] at h g
          cases h
          cases g
          have hs : PSR (RR (From W l) W.length l 0) afterStart afterStart := ⟨rfl, rfl, .inr ⟨rfl, rfl⟩, rfl, rfl⟩
          have := calls_same (tied_mv hd) t hs gt (by simpa using hl)
          simp [upToSource, furtherOn, this]

end Moved

end Yary
