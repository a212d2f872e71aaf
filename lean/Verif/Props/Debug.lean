import Verif.Spec.Debug
import Verif.Proof.TraceDoc
import Verif.Proof.Fuel
import Verif.Props.Parser
import Verif.Props.Scanner

/-! # Debug builds -/

namespace Yary

open Spec

variable {σ : Type} {drive : Drive σ}

namespace Debug

open PM Parser

/-- A peeked token is peeked again, and nothing changes. -/
theorem peek_held {s : PS σ} {e : TokenEntry} (h : s.tokens.peeked = some e) : peek drive s = (.ok e, s) := by
  simp only [peek, peekMaybe, onTokens, bind, SO.bind, PeekReader.peek, h]
  rfl

/-- Peeking leaves the token in its place. -/
theorem peek_holds {s s' : PS σ} {e : TokenEntry} (h : peek drive s = (.ok e, s')) :
    s'.tokens.peeked = some e ∧ s'.parser = s.parser := by
  unfold peek peekMaybe onTokens at h
  simp only [bind, SO.bind] at h
  cases hp : s.tokens.peek drive with
  | mk o t =>
    rw [hp] at h
    cases o with
    | ok r =>
      cases r with
      | none => simp [SO.fail] at h
      | some e' =>
        simp only [pure, SO.pure, Prod.mk.injEq, Out.ok.injEq] at h
        obtain ⟨rfl, rfl⟩ := h
        refine ⟨?_, rfl⟩
        unfold PeekReader.peek at hp
        split at hp
        · simp only [Prod.mk.injEq, Out.ok.injEq, Option.some.injEq] at hp
          obtain ⟨rfl, rfl⟩ := hp
          assumption
        · split at hp
          · split at hp <;> simp at hp
            obtain ⟨h1, rfl⟩ := hp
            exact h1
          · simp at hp
    | err e => simp at h
    | panic => simp at h
    | diverge => simp at h

theorem expect_held {s : PS σ} {e : TokenEntry} {ms : List Marker} (h : s.tokens.peeked = some e) (hm : e.marker ∈ ms) :
    expect drive ms s = (.ok (), s) := by
  simp only [expect, bind, SO.bind, peek_held h]
  rw [if_pos (by simpa using hm)]
  rfl

/-- One transition of a debug build is the one of a release build, or it fails at the end of a pair. -/
theorem stateTransition_debug {s : PS σ} {fuel : Nat} (hf : First s) :
    stateTransition drive fuel s = Parser.stateTransition drive fuel s ∨
    (stateTransition drive fuel s).1 = .panic ∧ ∃ (e : TokenEntry) (ev : Event) (s' : PS σ),
      Parser.stateTransition drive fuel s = (.ok (some ev), s') ∧ ev.data = .MappingEnd ∧ s'.tokens.peeked = some e ∧
      s'.parser.state.top = .FlowSequenceEntry false ∧ s'.parser.done = s.parser.done ∧
      e.marker ≠ .FlowEntry ∧ e.marker ≠ .FlowSequenceEnd := by
  have hok : assertion drive s = (.ok (), s) → stateTransition drive fuel s = Parser.stateTransition drive fuel s := by
    intro h
    simp only [stateTransition, bind, SO.bind, h]
  have hfirst : ∀ {m : Marker}, firstTok s.parser.state.top = some m → expect drive [m] s = (.ok (), s) := by
    intro m h
    obtain ⟨e, h1, h2⟩ := hf.tok m h
    exact expect_held h1 (by simp [h2])
  have hget : ∀ {α : Type} (k : PS σ → PM σ α), (do let s ← SO.get; k s : PM σ α) s = k s s := fun _ => rfl
  have htop : assertion drive s = (match s.parser.state.top with
      | .BlockSequenceEntry true => expect drive [.BlockSequenceStart]
      | .BlockMappingKey true => expect drive [.BlockMappingStart]
      | .FlowSequenceEntry true => expect drive [.FlowSequenceStart]
      | .FlowMappingKey true => expect drive [.FlowMappingStart]
      | .FlowSequenceMappingEnd => expect drive [.FlowEntry, .FlowSequenceEnd]
      | _ => pure ()) s := rfl
  by_cases hend : s.parser.state.top = .FlowSequenceMappingEnd
  · have ha : assertion drive s = expect drive [.FlowEntry, .FlowSequenceEnd] s := by rw [htop, hend]
    have hs : Parser.stateTransition drive fuel s = flowSequenceEntryMappingEnd drive s := by
      unfold Parser.stateTransition
      rw [hget, hend]
    have hd : stateTransition drive fuel s = SO.bind (assertion drive) (fun _ => Parser.stateTransition drive fuel) s := rfl
    cases hp : peek drive s with
    | mk o s1 =>
      have hs0 := hs
      unfold flowSequenceEntryMappingEnd at hs0
      have he : expect drive [.FlowEntry, .FlowSequenceEnd] s = SO.bind (peek drive)
          (fun e => if [Marker.FlowEntry, .FlowSequenceEnd].contains e.marker then pure () else SO.panic) s := rfl
      have hs' : Parser.stateTransition drive fuel s = SO.bind (peek drive) (fun e => (do
          setTop (.FlowSequenceEntry false)
          pure (some { start := e.readAt, stop := e.readAt, data := .MappingEnd }) : PM σ (Option Event))) s := hs0
      unfold SO.bind at hs' he
      rw [hp] at hs' he
      cases o with
      | ok e =>
        obtain ⟨h1, h2⟩ := peek_holds hp
        dsimp only at hs' he
        by_cases hc : [Marker.FlowEntry, .FlowSequenceEnd].contains e.marker = true
        · left
          rw [if_pos hc] at he
          have h3 : Parser.stateTransition drive fuel s1 = Parser.stateTransition drive fuel s := by
            rw [hs']
            have : Parser.stateTransition drive fuel s1 = flowSequenceEntryMappingEnd drive s1 := by
              unfold Parser.stateTransition
              have hget : ∀ {α : Type} (k : PS σ → PM σ α), (do let s ← SO.get; k s : PM σ α) s1 = k s1 s1 := fun _ => rfl
              rw [hget, h2, hend]
            rw [this]
            unfold flowSequenceEntryMappingEnd
            simp only [bind, SO.bind, peek_held h1]
          rw [hd]
          unfold SO.bind
          rw [ha, he]
          exact h3
        · right
          rw [if_neg hc] at he
          refine ⟨?_, e, _, _, hs', rfl, h1, rfl, by simp [h2, StateMachine.setTop], ?_⟩
          · rw [hd]
            unfold SO.bind
            rw [ha, he]
            rfl
          · simpa using hc
      | err e => left; rw [hd]; unfold SO.bind; rw [ha, he, hs']
      | panic => left; rw [hd]; unfold SO.bind; rw [ha, he, hs']
      | diverge => left; rw [hd]; unfold SO.bind; rw [ha, he, hs']
  · left
    refine hok ?_
    rw [htop]
    generalize s.parser.state.top = t at hfirst hend
    split
    · exact hfirst rfl
    · exact hfirst rfl
    · exact hfirst rfl
    · exact hfirst rfl
    · exact absurd rfl hend
    · rfl

/-- After the end of a pair comes the error, when the token is neither `,` nor `]`. -/
theorem pair_fails {s : PS σ} {e : TokenEntry} (hp : s.tokens.peeked = some e) (ht : s.parser.state.top = .FlowSequenceEntry false)
    (hd : s.parser.done = false) (h1 : e.marker ≠ .FlowEntry) (h2 : e.marker ≠ .FlowSequenceEnd) (n : Nat) :
    (Parser.nextEvent drive (n + 1) s).1 = .err .MissingFlowSequenceEntryOrEnd := by
  have hs : Parser.stateTransition drive (n + 1) s = flowSequenceEntry drive false s := by
    have hget : ∀ {α : Type} (k : PS σ → PM σ α), (do let s ← SO.get; k s : PM σ α) s = k s s := fun _ => rfl
    unfold Parser.stateTransition
    rw [hget, ht]
  have hq : flowSequenceEntry drive false s = (.err .MissingFlowSequenceEntryOrEnd, s) := by
    simp only [flowSequenceEntry, popFirst, bind, SO.bind, Bool.false_eq_true, if_false, pure, SO.pure, peek_held hp]
    rw [if_pos h2]
    have : popFlowEntry drive false e .MissingFlowSequenceEntryOrEnd = SO.fail .MissingFlowSequenceEntryOrEnd := by
      simp [popFlowEntry, h1]
    rw [this]
    rfl
  unfold Parser.nextEvent Parser.nextEventLoop
  simp only [bind, SO.bind, SO.get, hd, Bool.false_eq_true, if_false, hs, hq]

theorem nextEventLoop_debug {s : PS σ} {fuel n : Nat} (hf : First s) :
    nextEventLoop drive fuel n s = Parser.nextEventLoop drive fuel n s ∨
    (nextEventLoop drive fuel n s).1 = .panic ∧ ∃ (ev : Event) (s' : PS σ),
      Parser.nextEventLoop drive fuel n s = (.ok (some ev), s') ∧ ev.data = .MappingEnd ∧
      ∀ k, (Parser.nextEvent drive (k + 1) s').1 = .err .MissingFlowSequenceEntryOrEnd := by
  induction n generalizing s with
  | zero => exact .inl rfl
  | succ n ih =>
    have hget : ∀ {α : Type} (k : PS σ → PM σ α), (do let s ← SO.get; k s : PM σ α) s = k s s := fun _ => rfl
    unfold nextEventLoop Parser.nextEventLoop
    rw [hget, hget]
    by_cases hd : s.parser.done = true
    · rw [if_pos hd, if_pos hd]; exact .inl rfl
    · rw [if_neg hd, if_neg hd]
      have hd : s.parser.done = false := by simpa using hd
      simp only [bind, SO.bind]
      rcases stateTransition_debug (drive := drive) (fuel := fuel) hf with h | ⟨h1, e, ev, s', h2, h3, h4, h5, h6, h7, h8⟩
      · rw [h]
        cases hs : Parser.stateTransition drive fuel s with
        | mk o s1 =>
          cases o with
          | ok ev =>
            cases ev with
            | some ev => exact .inl rfl
            | none => exact ih (wp_ok (stateTransition_tr hf hd) hs).1
          | err e => exact .inl rfl
          | panic => exact .inl rfl
          | diverge => exact .inl rfl
      · right
        cases hs : stateTransition drive fuel s with
        | mk o s1 =>
          rw [hs] at h1
          obtain rfl : o = .panic := h1
          refine ⟨rfl, ev, s', by rw [h2]; rfl, h3, pair_fails h4 h5 (h6.trans hd) h7 h8⟩

end Debug

/-! ### C57 -/

/-- **C57**: a call of a debug build does what the call of a release build does, or it panics; it panics only where the release build
hands out the end of a pair in a flow sequence, and reports the missing `,` or `]` in the next call. -/
theorem C57_debug_partial {src : σ} {es : List Event} {s : PS σ} (h : Yields drive (start src) es s) (fuel : Nat) :
    Debug.nextEvent drive fuel s = Parser.nextEvent drive fuel s ∨
    (Debug.nextEvent drive fuel s).1 = .panic ∧ ∃ ev s', Parser.nextEvent drive fuel s = (.ok (some ev), s') ∧ ev.data = .MappingEnd ∧
      ∀ k, (Parser.nextEvent drive (k + 1) s').1 = .err .MissingFlowSequenceEntryOrEnd :=
  Debug.nextEventLoop_debug (yields_chunks h (Parser.new_first src)).1

theorem debug_of_yields {s s' : PS σ} {es : List Event} (h : Yields drive s es s') (hf : First s)
    (hne : ∀ fuel, (Parser.nextEvent drive fuel s').1 ≠ .err .MissingFlowSequenceEntryOrEnd) : DebugYields drive s es s' := by
  induction h with
  | nil => exact .nil _
  | @cons s s1 s2 e es fuel h t ih =>
    have hf1 := (Parser.nextEvent_tr hf h).1
    rcases Debug.nextEventLoop_debug (drive := drive) (fuel := fuel) (n := fuel) hf with hd | ⟨-, ev, s', h1, -, h2⟩
    · exact .cons fuel (hd.trans h) (ih hf1 hne)
    · rw [show Parser.nextEventLoop drive fuel fuel s = Parser.nextEvent drive fuel s from rfl, h] at h1
      simp only [Prod.mk.injEq, Out.ok.injEq] at h1
      obtain ⟨-, rfl⟩ := h1
      cases t with
      | nil => exact absurd (h2 0) (hne 1)
      | @cons _ _ _ e' _ fuel' h' _ =>
        have : fuel' ≠ 0 := by rintro rfl; simp [Parser.nextEvent, Parser.nextEventLoop, SO.diverge] at h'
        obtain ⟨k, rfl⟩ := Nat.exists_eq_succ_of_ne_zero this
        have := h2 k
        rw [h'] at this
        simp at this

/-- **C57**: what a release build reads to its end without an error, a debug build reads to the same end with the same events. -/
theorem C57_accepted {src : σ} {es : List Event} {s : PS σ} (h : Yields drive (start src) es s) (hd : Finished drive s) :
    DebugYields drive (start src) es s ∧ DebugFinished drive s := by
  obtain ⟨fuel, s', hs⟩ := hd
  have hne : ∀ f, (Parser.nextEvent drive f s).1 ≠ .err .MissingFlowSequenceEntryOrEnd := by
    intro f hf
    have := Parser.nextEvent_unique hs (Prod.ext hf rfl) (by simp) (by simp)
    simp at this
  refine ⟨debug_of_yields h (Parser.new_first src) hne, fuel, s', ?_⟩
  rcases C57_debug_partial h fuel with hd | ⟨-, ev, s1, h1, -⟩
  · exact hd.trans hs
  · rw [hs] at h1; simp at h1

/-- **C57**: the events of a debug build are the events of a release build. -/
theorem C57_events {src : σ} {es : List Event} {s : PS σ} (h : DebugYields drive (start src) es s) : Yields drive (start src) es s := by
  have hf := Parser.new_first src
  generalize start src = s0 at h hf
  induction h with
  | nil => exact .nil _
  | @cons s s1 s2 e es fuel h t ih =>
    rcases Debug.nextEventLoop_debug (drive := drive) (fuel := fuel) (n := fuel) hf with hd | ⟨hp, -⟩
    · have h' : Parser.nextEvent drive fuel s = (.ok (some e), s1) := hd.symm.trans h
      exact .cons fuel h' (ih (Parser.nextEvent_tr hf h').1)
    · rw [show Debug.nextEventLoop drive fuel fuel s = Debug.nextEvent drive fuel s from rfl, h] at hp
      simp at hp

/-- **C57** is partial: a debug build panics on a text that a release build rejects with an error. -/
theorem C57_differs : let d := borrowDrive {} (utf8 "[\"a\": \"b\" \"c\"]".toList)
    ∃ es s, Yields d (start {}) es s ∧ (Debug.nextEvent d 30 s).1 = .panic ∧ ∃ e s', Parser.nextEvent d 30 s = (.ok (some e), s') ∧
      (Parser.nextEvent d 30 s').1 = .err .MissingFlowSequenceEntryOrEnd := by
  intro d
  have hy : Yields d (start {}) (collect d 30 6 (start {})).1 (collect d 30 6 (start {})).2 := collect_yields _ _ _
  have hp : (Debug.nextEvent d 30 (collect d 30 6 (start {})).2).1 = .panic := by decide +kernel
  refine ⟨_, _, hy, hp, ?_⟩
  rcases C57_debug_partial hy 30 with h | ⟨-, e, s', h1, -, h2⟩
  · rw [h] at hp
    exact absurd hp (by decide +kernel)
  · exact ⟨e, s', h1, h2 29⟩

/-- A text with pairs and collections in a flow sequence is read by both builds, all twenty-five events of it. -/
example : let d := borrowDrive {} (utf8 "- [a: b, ? c, {e: f}]\n- x: []".toList)
    Yields d (start {}) (collect d 60 60 (start {})).1 (collect d 60 60 (start {})).2 ∧ Finished d (collect d 60 60 (start {})).2 :=
  ⟨collect_yields _ _ _, finished_of 60 (by decide +kernel)⟩

end Yary
