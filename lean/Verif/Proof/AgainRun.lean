import Verif.Proof.Again

/-! # The stack of the parser, whatever the calls returned -/

namespace Yary.Again

open Spec PM Parser

variable {σ : Type} {drive : Drive σ} {α β : Type}

/-- Not in a document. -/
def outer : State → Bool
  | .StreamStart | .DocumentStart .. | .DocumentEnd | .StreamEnd => true
  | _ => false

/-- In a document. -/
def In (p : Parser) : Prop := p.state.stack.getLast? = some .DocumentEnd ∧ Rest p.state

/-- Whatever the calls returned. -/
def Sh (p : Parser) : Prop := In p ∨ p.state.stack = [] ∧ outer p.state.top = true

theorem in_setTop {st : State} : Pres In (setTop st : PM σ Unit) := ⟨fun _ h => h⟩

theorem in_push {p : Parser} {st : State} (hl : later st = true) (h : In p) : In { p with state := p.state.push st } := by
  obtain ⟨h1, h2⟩ := h
  refine ⟨?_, fun q hq => ?_⟩
  · show (st :: p.state.stack).getLast? = _
    rw [List.getLast?_cons, h1]; rfl
  · rcases List.mem_cons.1 hq with rfl | hq
    · exact hl
    · exact h2 q hq

theorem in_pushState {st : State} (hl : later st = true) : Pres In (pushState st : PM σ Unit) := ⟨fun _ h => in_push hl h⟩

theorem in_pop {p : Parser} (h : In p) : Sh { p with state := p.state.pop } := by
  obtain ⟨⟨top, stack⟩, d, dn⟩ := p
  obtain ⟨h1, h2⟩ := h
  cases stack with
  | nil => cases h1
  | cons q qs =>
    cases qs with
    | nil =>
      simp only [List.getLast?_singleton, Option.some.injEq] at h1
      subst h1
      exact .inr ⟨rfl, rfl⟩
    | cons q' qs =>
      refine .inl ⟨by simpa [StateMachine.pop] using h1, fun x hx => h2 x (List.mem_cons_of_mem _ hx)⟩

/-- Once at most something is popped. -/
def Fin (m : PM σ α) : Prop := ∀ s, In s.parser → Sh (m s).2.parser

theorem Fin.of {m : PM σ α} (h : Pres In m) : Fin m := fun s hs => .inl (h.out s hs)
theorem Fin.pre {m : PM σ α} {f : α → PM σ β} (h : Pres In m) (h' : ∀ a, Fin (f a)) : Fin (m >>= f) := by
  intro s hs
  have h1 := h.out s hs
  simp only [bind, SO.bind]
  cases hm : m s with
  | mk o s' =>
    rw [hm] at h1
    cases o with
    | ok a => exact h' a s' h1
    | _ => exact .inl h1
theorem Fin.post {m : PM σ α} {f : α → PM σ β} (h : Fin m) (h' : ∀ a, Pres Sh (f a)) : Fin (m >>= f) := by
  intro s hs
  have h1 := h s hs
  simp only [bind, SO.bind]
  cases hm : m s with
  | mk o s' =>
    rw [hm] at h1
    cases o with
    | ok a => exact (h' a).out s' h1
    | _ => exact h1
theorem Fin.pop {f : Unit → PM σ β} (h' : ∀ a, Pres Sh (f a)) : Fin (popState >>= f) := Fin.post (fun _ hs => in_pop hs) h'
theorem Fin.ite {c : Prop} [Decidable c] {m m' : PM σ α} (h : Fin m) (h' : Fin m') : Fin (if c then m else m') := by split <;> assumption

theorem fin_nodeContent {block : Bool} {k : NodeKind} {n : Nat} {a : Option Str} {t : Option (Str × Str)} :
    Fin (nodeContent drive block k n a t) := by
  unfold nodeContent consumeScalar
  refine Fin.pre pres_peek fun e => ?_
  have hi : Fin (if a.isSome || t.isSome then do
      popState
      pure { start := n, stop := e.readAt, data := .Scalar { anchor := a, tag := t, kind := k } ScalarLike.empty }
    else SO.fail .MissingNode : PM σ Event) := Fin.ite (Fin.pop fun _ => pres_pure) (Fin.of pres_fail)
  dsimp only
  generalize e.marker = m
  cases m
  case FlowSequenceStart => exact Fin.of (pres_bind in_setTop fun _ => pres_pure)
  case FlowMappingStart => exact Fin.of (pres_bind in_setTop fun _ => pres_pure)
  case BlockSequenceStart => exact Fin.ite (Fin.of (pres_bind in_setTop fun _ => pres_pure)) hi
  case BlockMappingStart => exact Fin.ite (Fin.of (pres_bind in_setTop fun _ => pres_pure)) hi
  case Scalar =>
    refine Fin.pre (pres_bind pres_pop fun _ => ?_) fun _ => Fin.pop fun _ => pres_pure
    split <;> first | exact pres_pure | exact pres_panic
  all_goals exact hi

theorem fin_nodeEvent {block : Bool} {k : NodeKind} : Fin (nodeEvent drive block k) := by
  unfold nodeEvent consumeAlias
  refine Fin.pre pres_peek fun e => Fin.ite ?_ (Fin.pre pres_nodeProperties fun _ => fin_nodeContent)
  refine Fin.pop fun _ => pres_bind (pres_bind pres_pop fun _ => ?_) fun _ => pres_pure
  split <;> first | exact pres_pure | exact pres_panic

theorem fin_node {block : Bool} {k : NodeKind} : Fin (node drive block k) := by
  unfold node
  exact Fin.post fin_nodeEvent fun _ => pres_bind pres_get fun _ => pres_bind pres_lift fun _ => pres_pure

theorem Fin.move {st : State} {a : α} : Fin (do setTop st; pure a : PM σ α) := Fin.of (pres_bind in_setTop fun _ => pres_pure)
theorem Fin.leave {a : α} : Fin (do popState; pure a : PM σ α) := Fin.pop fun _ => pres_pure
theorem Fin.enter {st : State} {m : PM σ α} (h : later st = true) (h' : Fin m) : Fin (do pushState st; m : PM σ α) := Fin.pre (in_pushState h) fun _ => h'
theorem fin_fetchSequenceEnd {a b : Nat} : Fin (fetchSequenceEnd drive a b) := Fin.pop fun _ => pres_bind pres_pop fun _ => pres_pure
theorem fin_fetchMappingEnd {a b : Nat} : Fin (fetchMappingEnd drive a b) := Fin.pop fun _ => pres_bind pres_pop fun _ => pres_pure

theorem fin_explicitDocumentContent : Fin (explicitDocumentContent drive) :=
  Fin.pre pres_peek fun _ => Fin.ite Fin.leave fin_node
theorem fin_blockSequenceEntry {b : Bool} : Fin (blockSequenceEntry drive b) := by
  unfold blockSequenceEntry
  refine Fin.pre pres_popFirst fun _ => Fin.pre pres_peek fun e => ?_
  generalize e.marker = m
  cases m
  case BlockEntry => exact Fin.pre pres_pop fun _ => Fin.pre pres_peek fun _ => Fin.ite Fin.move (Fin.enter rfl fin_node)
  case BlockEnd => exact Fin.pre pres_pop fun _ => Fin.leave
  all_goals exact Fin.of pres_fail
theorem fin_blockMappingKey {b : Bool} : Fin (blockMappingKey drive b) := by
  unfold blockMappingKey
  refine Fin.pre pres_peekPopFirst fun _ => Fin.pre pres_peek fun e => ?_
  generalize e.marker = m
  cases m
  case Key => exact Fin.pre pres_pop fun _ => Fin.pre pres_peek fun _ => Fin.ite (Fin.enter rfl fin_node) Fin.move
  case BlockEnd => exact Fin.pre pres_pop fun _ => Fin.leave
  all_goals exact Fin.of pres_fail
theorem fin_blockMappingValue : Fin (blockMappingValue drive) := by
  unfold blockMappingValue
  refine Fin.pre pres_peek fun e => ?_
  generalize e.marker = m
  cases m
  case Value => exact Fin.pre pres_pop fun _ => Fin.pre pres_peek fun _ => Fin.ite (Fin.enter rfl fin_node) Fin.move
  all_goals exact Fin.move
theorem fin_flowSequenceEntry {b : Bool} : Fin (flowSequenceEntry drive b) :=
  have he {n m : Nat} : Fin (do let ev ← fetchSequenceEnd drive n m; pure (some ev) : PM σ (Option Event)) := Fin.post fin_fetchSequenceEnd fun _ => pres_pure
  Fin.pre pres_popFirst fun _ => Fin.pre pres_peek fun _ => Fin.ite
    (Fin.pre pres_popFlowEntry fun _ => Fin.pre pres_peek fun _ => Fin.ite (Fin.pre pres_pop fun _ => Fin.move) (Fin.ite (Fin.enter rfl fin_node) he)) he
theorem fin_flowSequenceEntryMappingKey : Fin (flowSequenceEntryMappingKey drive) :=
  Fin.pre pres_peek fun _ => Fin.ite (Fin.enter rfl fin_node) Fin.move
theorem fin_flowSequenceEntryMappingValue : Fin (flowSequenceEntryMappingValue drive) := by
  unfold flowSequenceEntryMappingValue
  refine Fin.pre pres_peek fun _ => Fin.pre ?_ fun _ => Fin.ite (Fin.enter rfl fin_node) Fin.move
  unfold flowPairHasValue
  split
  · exact pres_bind pres_pop fun _ => pres_bind pres_peek fun _ => pres_pure
  · exact pres_pure
theorem fin_flowSequenceEntryMappingEnd : Fin (flowSequenceEntryMappingEnd drive) := Fin.pre pres_peek fun _ => Fin.move
theorem fin_flowMappingKey {b : Bool} : Fin (flowMappingKey drive b) :=
  have he {n m : Nat} : Fin (do let ev ← fetchMappingEnd drive n m; pure (some ev) : PM σ (Option Event)) := Fin.post fin_fetchMappingEnd fun _ => pres_pure
  Fin.pre pres_popFirst fun _ => Fin.pre pres_peek fun _ => Fin.ite
    (Fin.pre pres_popFlowEntry fun _ => Fin.pre pres_peek fun _ => Fin.ite
      (Fin.pre pres_pop fun _ => Fin.pre pres_peek fun _ => Fin.ite (Fin.enter rfl fin_node) Fin.move) (Fin.ite (Fin.enter rfl fin_node) he)) he
theorem fin_flowMappingValue {b : Bool} : Fin (flowMappingValue drive b) :=
  Fin.pre pres_peek fun _ => Fin.ite Fin.move (Fin.ite (Fin.pre pres_pop fun _ => Fin.pre pres_peek fun _ => Fin.ite (Fin.enter rfl fin_node) Fin.move) Fin.move)

/-! ## Outside documents -/

theorem sh_setTop {st : State} (h : outer st = true) : Pres Sh (setTop st : PM σ Unit) :=
  ⟨fun _ hs => hs.imp id fun k => ⟨k.1, h⟩⟩
theorem sh_done : Pres Sh (SO.modify (ε := ParseError) fun s : PS σ => { s with parser := { s.parser with done := true } }) := ⟨fun _ h => h⟩
theorem sh_setDirectives {d : Directives} : Pres Sh (Parser.setDirectives d : PM σ Unit) := ⟨fun _ h => h⟩
theorem sh_begin {st : State} {f : Unit → PM σ β} (h : ∀ a, Pres Sh (f a)) : Pres Sh (do pushState .DocumentEnd; setTop st >>= f) := by
  refine ⟨fun s hs => ?_⟩
  refine (h ()).out _ (.inl ?_)
  rcases hs with hs | ⟨hs, -⟩
  · exact in_push rfl hs
  · refine ⟨?_, fun q hq => ?_⟩
    · show (State.DocumentEnd :: s.parser.state.stack).getLast? = _
      rw [hs]; rfl
    · have : q ∈ State.DocumentEnd :: s.parser.state.stack := hq
      rw [hs] at this
      simp only [List.mem_singleton] at this
      subst this
      rfl

/-- Walk through a handler. -/
macro "presS" : tactic => `(tactic| repeat' with_reducible first
  | exact pres_pure | exact pres_fail | exact pres_panic | exact pres_diverge | exact pres_get
  | exact pres_lift | exact pres_peekMaybe | exact pres_peek | exact pres_pop
  | exact sh_setTop rfl | exact sh_done | exact sh_setDirectives | refine sh_begin fun _ => ?_
  | solve_by_elim | apply pres_bind | intro _ | split)

theorem sh_streamStart : Pres Sh (streamStart drive) := by unfold streamStart consumeStreamStart; presS
theorem sh_streamEnd : Pres Sh (streamEnd drive) := by unfold streamEnd consumeStreamEnd; presS
theorem sh_documentEnd : Pres Sh (documentEnd drive) := by unfold documentEnd implicitEnd; presS
theorem sh_documentStart {fuel : Nat} {i f : Bool} : Pres Sh (documentStart drive fuel i f) := by
  have hd := fun {fuel} => pres_scanDocumentDirectives (I := Sh) (drive := drive) (fuel := fuel)
  have hm := pres_documentMarker (I := Sh) (drive := drive)
  have hs := pres_skipEndsIf (I := Sh) (drive := drive) (fuel := fuel) (b := i)
  unfold documentStart
  refine pres_bind hs fun _ => pres_bind pres_peek fun e => ?_
  dsimp only
  split
  · exact pres_bind hd fun _ => sh_begin fun _ => pres_bind sh_setDirectives fun _ => pres_pure
  · split
    · exact pres_bind hd fun _ => pres_bind hm fun _ => sh_begin fun _ => pres_bind sh_setDirectives fun _ => pres_pure
    · split
      · exact pres_bind hd fun _ => pres_bind (sh_setTop rfl) fun _ => pres_bind sh_setDirectives fun _ => pres_pure
      · exact pres_bind (sh_setTop rfl) fun _ => pres_pure

theorem Fin.at {m : PM σ α} (h : Fin m) {s : PS σ} (hs : Sh s.parser) (ht : outer s.parser.state.top = false) : Sh (m s).2.parser :=
  h s (hs.resolve_right fun k => by rw [ht] at k; cases k.2)

theorem stateTransition_sh {fuel : Nat} {s : PS σ} (hs : Sh s.parser) : Sh (stateTransition drive fuel s).2.parser := by
  unfold stateTransition
  simp only [bind, SO.bind, SO.get]
  cases ht : s.parser.state.top with
  | StreamStart => exact sh_streamStart.out _ hs
  | DocumentStart i f => exact sh_documentStart.out _ hs
  | DocumentContent => exact fin_explicitDocumentContent.at hs (by rw [ht]; rfl)
  | DocumentEnd => exact sh_documentEnd.out _ hs
  | BlockNode => exact fin_node.at hs (by rw [ht]; rfl)
  | FlowNode => exact fin_node.at hs (by rw [ht]; rfl)
  | BlockSequenceEntry f => exact fin_blockSequenceEntry.at hs (by rw [ht]; rfl)
  | BlockMappingKey f => exact fin_blockMappingKey.at hs (by rw [ht]; rfl)
  | BlockMappingValue => exact fin_blockMappingValue.at hs (by rw [ht]; rfl)
  | FlowSequenceEntry f => exact fin_flowSequenceEntry.at hs (by rw [ht]; rfl)
  | FlowSequenceMappingKey => exact fin_flowSequenceEntryMappingKey.at hs (by rw [ht]; rfl)
  | FlowSequenceMappingValue => exact fin_flowSequenceEntryMappingValue.at hs (by rw [ht]; rfl)
  | FlowSequenceMappingEnd => exact fin_flowSequenceEntryMappingEnd.at hs (by rw [ht]; rfl)
  | FlowMappingKey f => exact fin_flowMappingKey.at hs (by rw [ht]; rfl)
  | FlowMappingValue f => exact fin_flowMappingValue.at hs (by rw [ht]; rfl)
  | StreamEnd => exact sh_streamEnd.out _ hs

theorem nextEventLoop_sh {fuel n : Nat} {s : PS σ} (hs : Sh s.parser) : Sh (nextEventLoop drive fuel n s).2.parser := by
  induction n generalizing s with
  | zero => exact hs
  | succ n ih =>
    cases hd : s.parser.done with
    | true => simpa [nextEventLoop, bind, SO.bind, SO.get, hd, pure, SO.pure] using hs
    | false =>
      rw [nextEventLoop_succ hd]
      have h1 := stateTransition_sh (drive := drive) (fuel := fuel) hs
      cases hk : stateTransition drive fuel s with
      | mk o s1 =>
        rw [hk] at h1
        cases o with
        | ok ev =>
          cases ev with
          | some ev => exact h1
          | none => exact ih h1
        | _ => exact h1

theorem calls_sh {s s' : PS σ} {os : List (Out ParseError (Option Event))} (h : Calls drive s os s') (hs : Sh s.parser) : Sh s'.parser := by
  induction h with
  | nil => exact hs
  | cons fuel h hd t ih =>
    refine ih ?_
    have := nextEventLoop_sh (drive := drive) (fuel := fuel) (n := fuel) hs
    rw [show nextEventLoop drive fuel fuel = nextEvent drive fuel from rfl, h] at this
    exact this

theorem new_sh : Sh Parser.new := .inr ⟨rfl, rfl⟩

theorem Sh.rest {p : Parser} (h : Sh p) : Rest p.state := by
  rcases h with h | h
  · exact h.2
  · intro q hq
    rw [h.1] at hq
    cases hq

/-! ## After an event -/

/-- The event does not start a collection. -/
def noStart : KEv → Bool
  | .seqStart _ | .mapStart _ => false
  | _ => true

/-- The stack is not empty, or outside documents. -/
def Held (m : StateMachine) : Prop := Rest m ∧ (m.stack = [] → outer m.top = true)

theorem Sh.held {p : Parser} (h : Sh p) : Held p.state := by
  refine ⟨h.rest, fun hn => ?_⟩
  rcases h with h | h
  · rw [In, hn] at h; cases h.1
  · exact h.2

theorem later_pop {m : StateMachine} (h : Held m) (ht : outer m.top = false) : later m.pop.top = true := by
  obtain ⟨top, stack⟩ := m
  cases stack with
  | nil => rw [h.2 rfl] at ht; cases ht
  | cons q qs => exact h.1 q List.mem_cons_self

theorem later_node {k : NodeKind} {m m' : StateMachine} {e : KEv} (h : NodeStep k m e m') (hm : Held m) (ht : outer m.top = false) (he : noStart e = true) :
    later m'.top = true := by
  cases h with
  | alias => exact later_pop hm ht
  | scalar => exact later_pop hm ht
  | seqBlock | seqFlow | mapBlock | mapFlow => cases he

theorem held_push {top st : State} {ss : List State} (h : Held ⟨top, ss⟩) (hs : later st = true) : Held ⟨top, st :: ss⟩ := by
  refine ⟨fun q hq => ?_, nofun⟩
  rcases List.mem_cons.1 hq with rfl | hq
  · exact hs
  · exact h.1 q hq

theorem later_step {m m' : StateMachine} {e : KEv} {d : Bool} (h : Step m (some e) m' d) (hm : Held m) (he : noStart e = true) : later m'.top = true := by
  cases h with
  | streamStart | docImplicit | docExplicit | docFirst | docEnd | bseqEmpty | bkeyEmpty | bvalEmpty | fsmKeyEmpty | fsmValEmpty | fsmEnd
  | fkeyEmpty | fvalEmpty | streamEnd => rfl
  | bseqEnd | bkeyEnd | fseqEnd | fkeyEnd => exact later_pop hm rfl
  | fseqPair => cases he
  | content h | blockNode h | flowNode h => exact later_node h hm rfl he
  | bseqNode h | bkeyNode h | bvalNode h | fseqNode h | fsmKeyNode h | fsmValNode h | fkeyNode h | fvalNode h =>
    exact later_node h (held_push hm rfl) rfl he

theorem sh_skip {p p' : Parser} {d : Bool} (h : Step p.state none p'.state d) (hp : Sh p) : Sh p' := by
  obtain ⟨m, dirs, dn⟩ := p
  obtain ⟨m', dirs', dn'⟩ := p'
  dsimp only at h
  generalize hk : (none : Option KEv) = k at h
  cases h with
  | docNone =>
    rcases hp with hp | ⟨hp, -⟩
    · exact .inl hp
    · exact .inr ⟨hp, rfl⟩
  | contentEmpty =>
    have := in_pop (hp.resolve_right fun k => by cases k.2)
    exact this
  | _ => cases hk

theorem later_next {p p' : Parser} {ev : Option Event} (n : Next p ev p') {e : Event} (hev : ev = some e) (he : noStart (KEv.of e.data) = true)
    (hp : Sh p) : later p'.state.top = true := by
  induction n with
  | done => cases hev
  | some h t =>
    cases hev
    exact later_step t.step hp.held he
  | skip h t n ih => exact ih hev (sh_skip t.step hp)

/-! ## All calls -/

theorem calls_append {s s' : PS σ} {a b : List (Out ParseError (Option Event))} (h : Calls drive s (a ++ b) s') :
    ∃ s1, Calls drive s a s1 ∧ Calls drive s1 b s' := by
  induction a generalizing s with
  | nil => exact ⟨s, .nil _, h⟩
  | cons o a ih =>
    cases h with
    | cons fuel h hd t =>
      obtain ⟨s1, h1, h2⟩ := ih t
      exact ⟨s1, .cons fuel h hd h1, h2⟩

theorem flow_again {s s' : PS σ} {a b : List (Out ParseError (Option Event))} {e : ParseError} (h : Calls drive s (a ++ .err e :: b) s') (he : Flow e) :
    ∀ o ∈ b, o = .err e := by
  obtain ⟨s1, -, h1⟩ := calls_append h
  cases h1 with
  | cons fuel h hd t =>
    refine (blocked_calls t (nextEventLoop_fails ?_ (.inl he) h)).1
    cases he
    · exact .flowSeq
    · exact .flowMap

theorem later_again {s s' : PS σ} {a b : List (Out ParseError (Option Event))} {ev : Event} {e : ParseError}
    (h : Calls drive s (a ++ .ok (some ev) :: .err e :: b) s') (hs : Sh s.parser) (he : Stays e) (hev : noStart (KEv.of ev.data) = true) :
    ∀ o ∈ b, o = .err e := by
  obtain ⟨s1, h0, h1⟩ := calls_append h
  have hs1 := calls_sh h0 hs
  cases h1 with
  | cons fuel h hd t =>
    have hl := later_next (nextEvent_next h) rfl hev hs1
    have hs2 := calls_sh (.cons fuel h hd (.nil _)) hs1
    cases t with
    | cons fuel' h' hd' t' => exact (blocked_calls t' (nextEventLoop_fails he (.inr ⟨hl, hs2.rest⟩) h')).1

end Yary.Again
