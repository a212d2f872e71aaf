import Verif.Proof.Run

/-! No panics and no divergence, whatever happened before (errors included). -/

namespace Yary

open Spec PM

variable {σ : Type} {drive : Drive σ} {α β : Type}

/-- `m` keeps `I` of the parser, however it ends. -/
structure Pres (I : Parser → Prop) (m : PM σ α) : Prop where
  out : ∀ s, I s.parser → I (m s).2.parser

variable {I : Parser → Prop}

theorem pres_bind {x : PM σ α} {f : α → PM σ β} (hx : Pres I x) (hf : ∀ a, Pres I (f a)) :
    Pres I (x >>= f) := by
  refine ⟨fun s hs => ?_⟩
  have h1 := hx.out s hs
  simp only [bind, SO.bind]
  cases h : x s with
  | mk o s' =>
    rw [h] at h1
    cases o with
    | ok a => exact (hf a).out s' h1
    | _ => exact h1

theorem pres_pure {a : α} : Pres I (pure a : PM σ α) := ⟨fun _ h => h⟩
theorem pres_fail {e : ParseError} : Pres I (SO.fail e : PM σ α) := ⟨fun _ h => h⟩
theorem pres_panic : Pres I (SO.panic : PM σ α) := ⟨fun _ h => h⟩
theorem pres_diverge : Pres I (SO.diverge : PM σ α) := ⟨fun _ h => h⟩
theorem pres_get : Pres I (SO.get : PM σ (PS σ)) := ⟨fun _ h => h⟩
theorem pres_lift {x : Out ParseError α} : Pres I (SO.lift x : PM σ α) := ⟨fun _ h => h⟩

theorem pres_onTokens {f : PeekReader σ → Out ReaderError α × PeekReader σ} :
    Pres I (onTokens f) := by
  refine ⟨fun s h => ?_⟩
  unfold onTokens
  split <;> exact h

theorem pres_peekMaybe : Pres I (peekMaybe drive) := pres_onTokens

theorem pres_peek : Pres I (peek drive) := by
  refine pres_bind pres_peekMaybe fun e => ?_
  split
  · exact pres_pure
  · exact pres_fail

theorem pres_pop : Pres I (pop drive) := by
  refine pres_bind pres_onTokens fun e => ?_
  split
  · exact pres_pure
  · exact pres_fail

/-- States that may be on the stack. -/
def stackable : State → Bool
  | .StreamEnd | .DocumentStart .. | .DocumentContent => false
  | _ => true

/-- The stack holds only resumable states and the stream has not ended. -/
def Mid (p : Parser) : Prop :=
  p.state.top ≠ .StreamEnd ∧ (∀ q ∈ p.state.stack, stackable q = true) ∧ p.done = false ∧
    (p.state.top = .DocumentContent → p.state.stack ≠ [])

theorem pres_setTop {st : State} (h : st ≠ .StreamEnd) (h' : st ≠ .DocumentContent) :
    Pres Mid (setTop st : PM σ Unit) :=
  ⟨fun _ hs => ⟨h, hs.2.1, hs.2.2.1, fun hc => absurd hc h'⟩⟩

/-- An explicit document: content on top of its end. -/
theorem pres_explicit {f : PM σ α} (hf : Pres Mid f) :
    Pres Mid (do pushState .DocumentEnd; setTop .DocumentContent; f) := by
  refine ⟨fun s hs => ?_⟩
  refine hf.out _ ⟨by simp [StateMachine.setTop], ?_, hs.2.2.1, by
    simp [StateMachine.setTop, StateMachine.push]⟩
  intro q hq
  rcases List.mem_cons.mp hq with rfl | hq
  · rfl
  · exact hs.2.1 q hq

theorem pres_pushState {st : State} (h : stackable st = true) :
    Pres Mid (pushState st : PM σ Unit) := by
  refine ⟨fun s hs => ?_⟩
  refine ⟨hs.1, ?_, hs.2.2.1, fun _ => List.cons_ne_nil _ _⟩
  intro q hq
  rcases List.mem_cons.mp hq with rfl | hq
  · exact h
  · exact hs.2.1 q hq

theorem pres_popState : Pres Mid (popState : PM σ Unit) := by
  refine ⟨fun s hs => ?_⟩
  obtain ⟨p, t⟩ := s
  obtain ⟨⟨top, stack⟩, d, dn⟩ := p
  cases stack with
  | nil => exact hs
  | cons q qs =>
    have := hs.2.1 q (by simp)
    refine ⟨?_, fun x hx => hs.2.1 x (List.mem_cons_of_mem _ hx), hs.2.2.1, ?_⟩
    · rintro rfl
      simp [stackable] at this
    · rintro rfl
      simp [stackable] at this

theorem pres_setDirectives {d : Directives} : Pres Mid (Parser.setDirectives d : PM σ Unit) :=
  ⟨fun _ hs => hs⟩

/-- Walk through a handler. -/
macro "pres" : tactic => `(tactic| repeat' with_reducible first
  | exact pres_pure | exact pres_fail | exact pres_panic | exact pres_diverge | exact pres_get
  | exact pres_lift | exact pres_peekMaybe | exact pres_peek | exact pres_pop
  | exact pres_popState | exact pres_setTop (by simp) (by simp) | exact pres_pushState rfl
  | exact pres_setDirectives
  | solve_by_elim | apply pres_bind | intro _ | split)

namespace Parser

theorem pres_fetchAnchor {n : Nat} : Pres I (fetchAnchor drive n) := by
  unfold fetchAnchor consumeAnchor; pres

theorem pres_fetchTag {n : Nat} : Pres I (fetchTag drive n) := by
  unfold fetchTag consumeTag; pres

theorem pres_nodeProperties {n : Nat} {m : Marker} : Pres I (nodeProperties drive m n) := by
  have := fun n => pres_fetchAnchor (I := I) (drive := drive) (n := n)
  have := fun n => pres_fetchTag (I := I) (drive := drive) (n := n)
  unfold nodeProperties
  split
  · exact pres_bind pres_fetchAnchor fun _ => pres_bind pres_fetchTag fun _ => pres_pure
  · exact pres_bind pres_fetchTag fun _ => pres_bind pres_fetchAnchor fun _ => pres_pure
  · exact pres_pure

theorem pres_nodeContent {block : Bool} {k : NodeKind} {n : Nat} {a : Option Str}
    {t : Option (Str × Str)} : Pres Mid (nodeContent drive block k n a t) := by
  unfold nodeContent consumeScalar; pres

theorem pres_nodeEvent {block : Bool} {k : NodeKind} : Pres Mid (nodeEvent drive block k) := by
  unfold nodeEvent consumeAlias
  refine pres_bind pres_peek fun e => ?_
  split
  · pres
  · exact pres_bind pres_nodeProperties fun _ => pres_nodeContent

theorem pres_node {block : Bool} {k : NodeKind} : Pres Mid (node drive block k) := by
  have := pres_nodeEvent (drive := drive) (block := block) (k := k)
  unfold node; pres

theorem pres_scanDirectivesLoop {fuel n : Nat} {b : Bool} {d : Directives} :
    Pres I (scanDirectivesLoop drive fuel n b d) := by
  induction fuel generalizing n b d with
  | zero => exact pres_diverge
  | succ f ih =>
    unfold scanDirectivesLoop consumeVersion consumeTagDirective
    pres

theorem pres_scanDocumentDirectives {fuel : Nat} :
    Pres I (scanDocumentDirectives drive fuel) := by
  unfold scanDocumentDirectives
  exact pres_bind pres_peek fun _ => pres_bind pres_scanDirectivesLoop fun _ => pres_pure

theorem pres_skipDocumentEnds {fuel : Nat} : Pres I (skipDocumentEnds drive fuel) := by
  induction fuel with
  | zero => exact pres_diverge
  | succ f ih => unfold skipDocumentEnds; pres

theorem pres_skipEndsIf {fuel : Nat} {b : Bool} : Pres I (skipEndsIf drive fuel b) := by
  have := pres_skipDocumentEnds (I := I) (drive := drive) (fuel := fuel)
  unfold skipEndsIf; pres

theorem pres_streamStart : Pres Mid (streamStart drive) := by
  unfold streamStart consumeStreamStart; pres

theorem pres_documentEnd : Pres Mid (documentEnd drive) := by
  unfold documentEnd implicitEnd; pres

theorem pres_explicitDocumentContent : Pres Mid (explicitDocumentContent drive) := by
  have := pres_node (drive := drive) (block := true) (k := .Root)
  unfold explicitDocumentContent; pres

theorem pres_popFirst {b : Bool} : Pres I (popFirst drive b) := by unfold popFirst; pres

theorem pres_peekPopFirst {b : Bool} : Pres I (peekPopFirst drive b) := by
  unfold peekPopFirst; pres

theorem pres_popFlowEntry {b : Bool} {e : TokenEntry} {r : ParseError} :
    Pres I (popFlowEntry drive b e r) := by unfold popFlowEntry; pres

theorem pres_blockSequenceEntry {b : Bool} : Pres Mid (blockSequenceEntry drive b) := by
  have := pres_node (drive := drive) (block := true) (k := .Entry)
  have := pres_popFirst (I := Mid) (drive := drive) (b := b)
  unfold blockSequenceEntry; pres

theorem pres_blockMappingKey {b : Bool} : Pres Mid (blockMappingKey drive b) := by
  have := pres_node (drive := drive) (block := true) (k := .Key)
  have := pres_peekPopFirst (I := Mid) (drive := drive) (b := b)
  unfold blockMappingKey; pres

theorem pres_blockMappingValue : Pres Mid (blockMappingValue drive) := by
  have := pres_node (drive := drive) (block := true) (k := .Value)
  unfold blockMappingValue; pres

theorem pres_flowSequenceEntry {b : Bool} : Pres Mid (flowSequenceEntry drive b) := by
  have := pres_node (drive := drive) (block := false) (k := .Entry)
  have := pres_popFirst (I := Mid) (drive := drive) (b := b)
  have h := fun e => pres_popFlowEntry (I := Mid) (drive := drive) (b := b) (e := e)
    (r := .MissingFlowSequenceEntryOrEnd)
  unfold flowSequenceEntry fetchSequenceEnd
  pres

theorem pres_flowSequenceEntryMappingKey : Pres Mid (flowSequenceEntryMappingKey drive) := by
  have := pres_node (drive := drive) (block := false) (k := .Key)
  unfold flowSequenceEntryMappingKey; pres

theorem pres_flowSequenceEntryMappingValue : Pres Mid (flowSequenceEntryMappingValue drive) := by
  have := pres_node (drive := drive) (block := false) (k := .Value)
  unfold flowSequenceEntryMappingValue flowPairHasValue; pres

theorem pres_flowSequenceEntryMappingEnd : Pres Mid (flowSequenceEntryMappingEnd drive) := by
  unfold flowSequenceEntryMappingEnd; pres

theorem pres_flowMappingKey {b : Bool} : Pres Mid (flowMappingKey drive b) := by
  have := pres_node (drive := drive) (block := false) (k := .Key)
  have := pres_popFirst (I := Mid) (drive := drive) (b := b)
  have h := fun e => pres_popFlowEntry (I := Mid) (drive := drive) (b := b) (e := e)
    (r := .MissingFlowMappingEntryOrEnd)
  unfold flowMappingKey fetchMappingEnd
  pres

theorem pres_flowMappingValue {b : Bool} : Pres Mid (flowMappingValue drive b) := by
  have := pres_node (drive := drive) (block := false) (k := .Value)
  unfold flowMappingValue; pres

/-- The stream end token is next and the parser is about to report it. -/
def AtEnd (s : PS σ) : Prop :=
  s.parser.state.top = .StreamEnd ∧ (∀ q ∈ s.parser.state.stack, stackable q = true) ∧
    s.parser.done = false ∧ ∃ e, s.tokens.peeked = some e ∧ e.marker = .StreamEnd

/-- Where a parser can be between two calls, whatever happened before. -/
def Inv (s : PS σ) : Prop := Mid s.parser ∨ s.parser.done = true

theorem bind_post {x : PM σ α} {f : α → PM σ β} {s : PS σ} {J : Out ParseError β × PS σ → Prop}
    (hx : Pres Mid x) (hs : Mid s.parser) (hJ : ∀ o s', Mid s'.parser → J (o, s'))
    (h : ∀ a s', x s = (.ok a, s') → Mid s'.parser → J (f a s')) : J ((x >>= f) s) := by
  have h1 := hx.out s hs
  simp only [bind, SO.bind]
  cases hx : x s with
  | mk o s' =>
    rw [hx] at h1
    cases o with
    | ok a => exact h a s' hx h1
    | err _ | panic | diverge => exact hJ _ _ h1

theorem peek_peeked_ok {s s' : PS σ} {e : TokenEntry} (h : PM.peek drive s = (.ok e, s')) :
    s'.tokens.peeked = some e ∧ s'.parser = s.parser := by
  unfold PM.peek peekMaybe onTokens at h
  simp only [bind, SO.bind] at h
  cases hp : s.tokens.peek drive with
  | mk o t =>
    rw [hp] at h
    cases o with
    | ok r =>
      cases r with
      | none => simp [SO.fail] at h
      | some r =>
        simp only [pure, SO.pure, Prod.mk.injEq, Out.ok.injEq] at h
        obtain ⟨rfl, rfl⟩ := h
        exact ⟨PeekReader.peek_peeked hp, rfl⟩
    | err _ | panic | diverge => simp at h

theorem pres_documentMarker : Pres I (documentMarker drive) := by
  unfold documentMarker; pres

/-- After `document_start` the parser is in the middle of the stream, or reported nothing and is
about to report the end. -/
theorem documentStart_post {fuel : Nat} {i f : Bool} {s : PS σ} (hs : Mid s.parser) :
    Mid (documentStart drive fuel i f s).2.parser ∨
      (AtEnd (documentStart drive fuel i f s).2 ∧ (documentStart drive fuel i f s).1 = .ok none) := by
  let J : Out ParseError (Option Event) × PS σ → Prop := fun r =>
    Mid r.2.parser ∨ (AtEnd r.2 ∧ r.1 = .ok none)
  have hJ : ∀ o s', Mid s'.parser → J (o, s') := fun o s' h => .inl h
  have hP : ∀ {m : PM σ (Option Event)} {s : PS σ}, Pres Mid m → Mid s.parser → J (m s) :=
    fun hm hs => .inl (hm.out _ hs)
  show J (documentStart drive fuel i f s)
  unfold documentStart
  refine bind_post pres_skipEndsIf hs hJ fun _ s1 _ h1 => ?_
  refine bind_post pres_peek h1 hJ fun e s2 he h2 => ?_
  have hp := peek_peeked_ok he
  have hd := fun {fuel} => pres_scanDocumentDirectives (I := Mid) (drive := drive) (fuel := fuel)
  have hm := pres_documentMarker (I := Mid) (drive := drive)
  dsimp only
  split
  · refine hP ?_ h2
    refine pres_bind hd fun _ => ?_
    pres
  · split
    · refine hP ?_ h2
      refine pres_bind hd fun _ => pres_bind hm fun _ => ?_
      refine pres_explicit ?_
      pres
    · next hne =>
      split
      · refine hP ?_ h2
        refine pres_bind hd fun _ => ?_
        pres
      · refine .inr ⟨⟨rfl, h2.2.1, h2.2.2.1, e, hp.1, ?_⟩, rfl⟩
        simpa using hne

/-- `stream_end` at the stream end token produces the event. -/
theorem streamEnd_atEnd {s : PS σ} (h : AtEnd s) :
    ∃ e s', streamEnd drive s = (.ok (some e), s') ∧ s'.parser.done = true := by
  obtain ⟨ht, hs, hd, e, hp, hm⟩ := h
  have hw := marker_streamEnd hm
  refine ⟨{ start := e.readAt, stop := e.readAt, data := .StreamEnd },
    { parser := { s.parser with done := true }, tokens := { s.tokens with peeked := none } },
    ?_, rfl⟩
  simp [streamEnd, bind, SO.bind, SO.get, hd, consumeStreamEnd, PM.pop, onTokens,
    PeekReader.pop_of_peeked hp, pure, SO.pure, hw, SO.modify]

/-- Handlers other than `document_start` and `stream_end` stay in the middle of the stream. -/
theorem stateTransition_post {fuel : Nat} {s : PS σ} (hs : Mid s.parser) :
    Mid (stateTransition drive fuel s).2.parser ∨
      (AtEnd (stateTransition drive fuel s).2 ∧ (stateTransition drive fuel s).1 = .ok none) := by
  unfold stateTransition
  simp only [bind, SO.bind, SO.get]
  cases ht : s.parser.state.top with
  | StreamStart => exact .inl (pres_streamStart.out _ hs)
  | DocumentStart i f => exact documentStart_post hs
  | DocumentContent => exact .inl (pres_explicitDocumentContent.out _ hs)
  | DocumentEnd => exact .inl (pres_documentEnd.out _ hs)
  | BlockNode => exact .inl (pres_node.out _ hs)
  | FlowNode => exact .inl (pres_node.out _ hs)
  | BlockSequenceEntry f => exact .inl (pres_blockSequenceEntry.out _ hs)
  | BlockMappingKey f => exact .inl (pres_blockMappingKey.out _ hs)
  | BlockMappingValue => exact .inl (pres_blockMappingValue.out _ hs)
  | FlowSequenceEntry f => exact .inl (pres_flowSequenceEntry.out _ hs)
  | FlowSequenceMappingKey => exact .inl (pres_flowSequenceEntryMappingKey.out _ hs)
  | FlowSequenceMappingValue => exact .inl (pres_flowSequenceEntryMappingValue.out _ hs)
  | FlowSequenceMappingEnd => exact .inl (pres_flowSequenceEntryMappingEnd.out _ hs)
  | FlowMappingKey f => exact .inl (pres_flowMappingKey.out _ hs)
  | FlowMappingValue f => exact .inl (pres_flowMappingValue.out _ hs)
  | StreamEnd => exact absurd ht hs.1

theorem stateTransition_atEnd {fuel : Nat} {s : PS σ} (h : AtEnd s) :
    stateTransition drive fuel s = streamEnd drive s := by
  simp [stateTransition, bind, SO.bind, SO.get, h.1]

theorem wp_not_panic {ε : Type} {m : SO σ ε α} {s : σ} {Q : α → σ → Prop}
    (h : wp False m s Q) : (m s).1 ≠ .panic := by
  unfold wp at h
  split at h <;> simp_all

/-- No handler panics over a source that does not. -/
theorem stateTransition_no_panic {fuel : Nat} {s : PS σ} (hsrc : ∀ st, (drive st).1 ≠ .panic)
    (hs : Mid s.parser) : (stateTransition drive fuel s).1 ≠ .panic := by
  have hs' : SrcOk False drive := fun ⟨st, h⟩ => hsrc st h
  have hd := hs.2.2.1
  have hst : s.parser.state = ⟨s.parser.state.top, s.parser.state.stack⟩ := rfl
  refine wp_not_panic (Q := fun _ _ => True) ?_
  unfold stateTransition
  rw [wp_bind, wp_get]
  split <;> rename_i ht <;> rw [ht] at hst
  · exact wp_mono (streamStart_spec hs' hst hd) fun _ _ _ => trivial
  · exact wp_mono (documentStart_spec hs' hst hd) fun _ _ _ => trivial
  · exact wp_mono (explicitDocumentContent_spec hs' hst hd) fun _ _ _ => trivial
  · exact wp_mono (documentEnd_spec hs' hst hd) fun _ _ _ => trivial
  · exact wp_mono (node_spec hs') fun _ _ _ => trivial
  · exact wp_mono (node_spec hs') fun _ _ _ => trivial
  · exact wp_mono (blockSequenceEntry_spec hs' hst hd) fun _ _ _ => trivial
  · exact wp_mono (blockMappingKey_spec hs' hst hd) fun _ _ _ => trivial
  · exact wp_mono (blockMappingValue_spec hs' hst hd) fun _ _ _ => trivial
  · exact wp_mono (flowSequenceEntry_spec hs' hst hd) fun _ _ _ => trivial
  · exact wp_mono (flowSequenceEntryMappingKey_spec hs' hst hd) fun _ _ _ => trivial
  · exact wp_mono (flowSequenceEntryMappingValue_spec hs' hst hd) fun _ _ _ => trivial
  · exact wp_mono (flowSequenceEntryMappingEnd_spec hs' hst hd) fun _ _ _ => trivial
  · exact wp_mono (flowMappingKey_spec hs' hst hd) fun _ _ _ => trivial
  · exact wp_mono (flowMappingValue_spec hs' hst hd) fun _ _ _ => trivial
  · exact absurd ht hs.1

/-- The loop of `next_event`, unfolded once. -/
theorem nextEventLoop_succ {fuel n : Nat} {s : PS σ} (hd : s.parser.done = false) :
    nextEventLoop drive fuel (n + 1) s =
      match stateTransition drive fuel s with
      | (.ok (some ev), s') => (.ok (some ev), s')
      | (.ok none, s') => nextEventLoop drive fuel n s'
      | (.err e, s') => (.err e, s')
      | (.panic, s') => (.panic, s')
      | (.diverge, s') => (.diverge, s') := by
  conv => lhs; unfold nextEventLoop
  simp only [bind, SO.bind, SO.get, hd, Bool.false_eq_true, if_false]
  cases stateTransition drive fuel s with
  | mk o s' =>
    cases o with
    | ok r => cases r <;> rfl
    | _ => rfl

/-- Invariant and absence of panics for a whole call. -/
theorem nextEventLoop_safe {fuel n : Nat} {s : PS σ} (hs : Inv s ∨ AtEnd s) :
    ((nextEventLoop drive fuel n s).1 ≠ .diverge → Inv (nextEventLoop drive fuel n s).2) ∧
    ((∀ st, (drive st).1 ≠ .panic) → (nextEventLoop drive fuel n s).1 ≠ .panic) := by
  induction n generalizing s with
  | zero => simp [nextEventLoop, SO.diverge]
  | succ n ih =>
    rcases hs with (hm | hd) | he
    · rw [nextEventLoop_succ hm.2.2.1]
      have h1 := stateTransition_post (drive := drive) (fuel := fuel) hm
      have h2 := fun h => stateTransition_no_panic (drive := drive) (fuel := fuel) h hm
      cases ht : stateTransition drive fuel s with
      | mk o s' =>
        rw [ht] at h1 h2
        cases o with
        | ok r =>
          cases r with
          | some e => exact ⟨fun _ => .inl (by simpa using h1), by simp⟩
          | none =>
            refine ih ?_
            rcases h1 with h1 | h1
            · exact .inl (.inl h1)
            · exact .inr h1.1
        | err e => exact ⟨fun _ => .inl (by simpa using h1), by simp⟩
        | panic => exact ⟨fun _ => .inl (by simpa using h1), fun h => absurd rfl (h2 h)⟩
        | diverge => exact ⟨by simp, by simp⟩
    · have : nextEventLoop drive fuel (n + 1) s = (.ok none, s) := by
        simp [nextEventLoop, bind, SO.bind, SO.get, hd, pure, SO.pure]
      rw [this]
      exact ⟨fun _ => .inr hd, by simp⟩
    · rw [nextEventLoop_succ he.2.2.1, stateTransition_atEnd he]
      obtain ⟨e, s', h, hd⟩ := streamEnd_atEnd (drive := drive) he
      rw [h]
      exact ⟨fun _ => .inr hd, by simp⟩

theorem new_inv {t : PeekReader σ} : Inv { parser := Parser.new, tokens := t } :=
  .inl ⟨by simp [Parser.new], by simp [Parser.new], rfl, by simp [Parser.new]⟩

end Parser

end Yary
