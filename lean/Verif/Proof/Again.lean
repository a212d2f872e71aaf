import Verif.Proof.Undefined
import Verif.Proof.Safe

/-! # Errors of the parser that come again: it waits for a token that is not there -/

namespace Yary.Again

open Spec PM Parser

variable {σ : Type} {drive : Drive σ} {α β : Type}

/-! ## The errors -/

/-- Something other than another entry, or the end, comes after an entry of a collection. -/
inductive Stays : ParseError → Prop where
  | flowSeq : Stays .MissingFlowSequenceEntryOrEnd
  | flowMap : Stays .MissingFlowMappingEntryOrEnd
  | blockSeq : Stays .MissingBlockEntry
  | blockMap : Stays .MissingKey

/-- The collection is not at its first entry. -/
def later : State → Bool
  | .BlockSequenceEntry true | .BlockMappingKey true => false
  | _ => true

/-- The next token is neither another entry of the collection nor its end. -/
inductive Stuck : ParseError → State → Marker → Prop where
  | flowSeq {m} (h : m ≠ .FlowSequenceEnd) (h' : m ≠ .FlowEntry) : Stuck .MissingFlowSequenceEntryOrEnd (.FlowSequenceEntry false) m
  | flowMap {m} (h : m ≠ .FlowMappingEnd) (h' : m ≠ .FlowEntry) : Stuck .MissingFlowMappingEntryOrEnd (.FlowMappingKey false) m
  | blockSeq {m} (h : m ≠ .BlockEntry) (h' : m ≠ .BlockEnd) : Stuck .MissingBlockEntry (.BlockSequenceEntry false) m
  | blockMap {m} (h : m ≠ .Key) (h' : m ≠ .BlockEnd) : Stuck .MissingKey (.BlockMappingKey false) m

/-- And it has been looked at. -/
def Blocked (e : ParseError) (s : PS σ) : Prop :=
  s.parser.done = false ∧ ∃ t, s.tokens.peeked = some t ∧ Stuck e s.parser.state.top t.marker

theorem peek_held {s : PS σ} {e : TokenEntry} (hp : s.tokens.peeked = some e) : PM.peek drive s = (.ok e, s) := by
  obtain ⟨p, ⟨pk, r⟩⟩ := s
  subst hp
  rfl

/-- Then every call fails in the same way, and changes nothing. -/
theorem blocked_again {e : ParseError} {s : PS σ} (h : Blocked e s) (n : Nat) : nextEvent drive (n + 1) s = (.err e, s) := by
  obtain ⟨hd, t, hp, hs⟩ := h
  have hq : stateTransition drive (n + 1) s = (.err e, s) := by
    have hget : ∀ {α : Type} (k : PS σ → PM σ α), (do let s ← SO.get; k s : PM σ α) s = k s s := fun _ => rfl
    unfold stateTransition
    rw [hget]
    generalize s.parser.state.top = st at hs
    cases hs with
    | flowSeq h h' =>
      simp only [flowSequenceEntry, popFirst, bind, SO.bind, Bool.false_eq_true, if_false, pure, SO.pure, peek_held hp]
      rw [if_pos h]
      simp only [popFlowEntry, h', if_false, Bool.false_eq_true]
      rfl
    | flowMap h h' =>
      simp only [flowMappingKey, popFirst, bind, SO.bind, Bool.false_eq_true, if_false, pure, SO.pure, peek_held hp]
      rw [if_pos h]
      simp only [popFlowEntry, h', if_false, Bool.false_eq_true]
      rfl
    | blockSeq h h' =>
      simp only [blockSequenceEntry, popFirst, bind, SO.bind, Bool.false_eq_true, if_false, pure, SO.pure, peek_held hp]
      generalize t.marker = m at h h'
      cases m <;> first | exact absurd rfl h | exact absurd rfl h' | rfl
    | blockMap h h' =>
      simp only [blockMappingKey, peekPopFirst, bind, SO.bind, Bool.false_eq_true, if_false, pure, SO.pure, peek_held hp]
      generalize t.marker = m at h h'
      cases m <;> first | exact absurd rfl h | exact absurd rfl h' | rfl
  unfold nextEvent
  rw [nextEventLoop_succ hd, hq]

theorem blocked_calls {e : ParseError} {s s' : PS σ} {b : List (Out ParseError (Option Event))} (h : Calls drive s b s') (hb : Blocked e s) :
    (∀ o ∈ b, o = .err e) ∧ s' = s := by
  induction h with
  | nil => exact ⟨nofun, rfl⟩
  | cons fuel h hd t ih =>
    cases fuel with
    | zero => cases h; exact absurd rfl hd
    | succ n =>
      rw [blocked_again hb] at h
      simp only [Prod.mk.injEq] at h
      obtain ⟨rfl, rfl⟩ := h
      obtain ⟨h1, h2⟩ := ih hb
      refine ⟨fun o ho => ?_, h2⟩
      rcases List.mem_cons.1 ho with rfl | ho
      · rfl
      · exact h1 o ho

/-! ## Who raises them -/

/-- None of the errors is raised. -/
def Quiet (m : PM σ α) : Prop := ∀ s e, (m s).1 = .err e → ¬ Stays e

namespace Quiet

theorem bind {m : PM σ α} {f : α → PM σ β} (h : Quiet m) (h' : ∀ a, Quiet (f a)) : Quiet (m >>= f) := by
  intro s
  have := h s
  show ∀ e, (SO.bind m f s).1 = _ → _
  unfold SO.bind
  generalize m s = r at this
  obtain ⟨o, s1⟩ := r
  cases o with
  | ok a => exact h' a s1
  | err e => exact fun e' k => this e' (by cases k; rfl)
  | panic => exact fun _ => nofun
  | diverge => exact fun _ => nofun

theorem pure {a : α} : Quiet (Pure.pure a : PM σ α) := fun _ _ => nofun
theorem fail {e : ParseError} (h : ¬ Stays e) : Quiet (SO.fail e : PM σ α) := fun _ _ h' => by cases h'; exact h
theorem panic : Quiet (SO.panic : PM σ α) := fun _ _ => nofun
theorem diverge : Quiet (SO.diverge : PM σ α) := fun _ _ => nofun
theorem ite {c : Prop} [Decidable c] {m m' : PM σ α} (h : Quiet m) (h' : Quiet m') : Quiet (if c then m else m') := by split <;> assumption
theorem setTop {st : State} : Quiet (PM.setTop st : PM σ Unit) := fun _ _ => nofun
theorem pushState {st : State} : Quiet (PM.pushState st : PM σ Unit) := fun _ _ => nofun
theorem popState : Quiet (PM.popState : PM σ Unit) := fun _ _ => nofun
theorem modify {f : PS σ → PS σ} : Quiet (SO.modify f : PM σ Unit) := fun _ _ => nofun
theorem get : Quiet (SO.get : PM σ (PS σ)) := fun _ _ => nofun
theorem setDirectives {d : Directives} : Quiet (Parser.setDirectives d : PM σ Unit) := fun _ _ => nofun

theorem onTokens {f : PeekReader σ → Out ReaderError α × PeekReader σ} : Quiet (PM.onTokens f) := by
  intro s e
  simp only [PM.onTokens]
  generalize f s.tokens = r
  obtain ⟨o, p⟩ := r
  cases o with
  | err x => intro h; cases h; cases x <;> exact nofun
  | _ => exact nofun

theorem peekMaybe : Quiet (PM.peekMaybe drive) := onTokens
theorem peek : Quiet (PM.peek drive) := bind peekMaybe fun t => by
  cases t with
  | none => exact fail nofun
  | some e => exact pure
theorem pop : Quiet (PM.pop drive) := bind onTokens fun t => by
  cases t with
  | none => exact fail nofun
  | some e => exact pure

/-- Walk over a handler. -/
syntax "walkQ" : tactic
/-- What is known of handlers. -/
syntax "knownQ" : tactic
macro_rules
  | `(tactic| knownQ) => `(tactic| first
      | exact pure | exact fail nofun | exact panic | exact diverge | exact peek | exact pop | exact peekMaybe | exact setTop
      | exact pushState | exact popState | exact setDirectives | exact modify | exact get | assumption)
macro_rules
  | `(tactic| walkQ) => `(tactic| repeat' (first | knownQ | with_reducible refine ite ?_ ?_ | with_reducible refine bind ?_ fun _ => ?_ | split))

theorem scanDirectivesLoop : ∀ fuel stop seen dir, Quiet (Parser.scanDirectivesLoop drive fuel stop seen dir) := by
  intro fuel
  induction fuel with
  | zero => intro _ _ _; exact diverge
  | succ fuel ih =>
    intro stop seen dir
    unfold Parser.scanDirectivesLoop Parser.consumeVersion Parser.consumeTagDirective
    walkQ
    all_goals exact ih _ _ _

theorem scanDocumentDirectives (fuel : Nat) : Quiet (Parser.scanDocumentDirectives drive fuel) := by
  unfold Parser.scanDocumentDirectives
  exact bind peek fun _ => bind (scanDirectivesLoop _ _ _ _) fun _ => pure

theorem fetchAnchor (n : Nat) : Quiet (Parser.fetchAnchor drive n) := by
  unfold Parser.fetchAnchor Parser.consumeAnchor; walkQ
theorem fetchTag (n : Nat) : Quiet (Parser.fetchTag drive n) := by
  unfold Parser.fetchTag Parser.consumeTag; walkQ
theorem fetchSequenceEnd (a b : Nat) : Quiet (Parser.fetchSequenceEnd drive a b) := by
  unfold Parser.fetchSequenceEnd; walkQ
theorem fetchMappingEnd (a b : Nat) : Quiet (Parser.fetchMappingEnd drive a b) := by
  unfold Parser.fetchMappingEnd; walkQ

theorem nodeProperties (m : Marker) (n : Nat) : Quiet (Parser.nodeProperties drive m n) := by
  unfold Parser.nodeProperties
  split
  · exact bind (fetchAnchor _) fun _ => bind (fetchTag _) fun _ => pure
  · exact bind (fetchTag _) fun _ => bind (fetchAnchor _) fun _ => pure
  · exact pure

theorem nodeContent (block : Bool) (kind : NodeKind) (n : Nat) (anchor : Option Str) (tag : Option (Str × Str)) :
    Quiet (Parser.nodeContent drive block kind n anchor tag) := by
  unfold Parser.nodeContent Parser.consumeScalar
  refine bind peek fun e => ?_
  dsimp only
  walkQ

theorem nodeEvent (block : Bool) (kind : NodeKind) : Quiet (Parser.nodeEvent drive block kind) := by
  unfold Parser.nodeEvent Parser.consumeAlias
  refine bind peek fun _ => ite ?_ (bind (nodeProperties _ _) fun _ => nodeContent _ _ _ _ _)
  walkQ

theorem validateTag {tags : TagMap} {tag : Option (Str × Str)} {b : Bool} {e : ParseError} (h : Parser.validateTag tags tag b = .err e) : ¬ Stays e := by
  unfold Parser.validateTag at h
  split at h
  · cases h
  · dsimp only at h
    split at h
    · cases h
    · split at h
      · cases h; exact nofun
      · cases h

theorem validate {tags : TagMap} {ev : Event} {e : ParseError} (h : Parser.validateEventTag tags ev = .err e) : ¬ Stays e := by
  unfold Parser.validateEventTag at h
  split at h
  · rcases Out.bind_eq_err.1 h with h | ⟨_, _, h⟩
    · exact validateTag h
    · cases h
  · rcases Out.bind_eq_err.1 h with h | ⟨_, _, h⟩
    · exact validateTag h
    · cases h
  · rcases Out.bind_eq_err.1 h with h | ⟨_, _, h⟩
    · exact validateTag h
    · cases h
  · cases h

theorem node (block : Bool) (kind : NodeKind) : Quiet (Parser.node drive block kind) := by
  unfold Parser.node
  refine bind (nodeEvent _ _) fun e => bind get fun s => bind ?_ fun _ => pure
  intro s' x h
  exact validate h

theorem skipDocumentEnds : ∀ fuel, Quiet (Parser.skipDocumentEnds drive fuel) := by
  intro fuel
  induction fuel with
  | zero => exact diverge
  | succ fuel ih => exact bind peek fun _ => ite (bind pop fun _ => ih) pure

theorem skipEndsIf (fuel : Nat) (b : Bool) : Quiet (Parser.skipEndsIf drive fuel b) := ite pure (skipDocumentEnds _)
theorem documentMarker : Quiet (Parser.documentMarker drive) := by unfold Parser.documentMarker; walkQ
theorem popFirst (first : Bool) : Quiet (Parser.popFirst drive first) := by unfold Parser.popFirst; walkQ
theorem peekPopFirst (first : Bool) : Quiet (Parser.peekPopFirst drive first) := by unfold Parser.peekPopFirst; walkQ

theorem streamStart : Quiet (Parser.streamStart drive) := by unfold Parser.streamStart Parser.consumeStreamStart; walkQ
theorem streamEnd : Quiet (Parser.streamEnd drive) := by unfold Parser.streamEnd Parser.consumeStreamEnd; walkQ
theorem documentStart (fuel : Nat) (implicit first : Bool) : Quiet (Parser.documentStart drive fuel implicit first) := by
  have h1 := scanDocumentDirectives (drive := drive) fuel
  have h2 := documentMarker (drive := drive)
  have h3 := skipEndsIf (drive := drive) fuel implicit
  unfold Parser.documentStart
  walkQ
theorem documentEnd : Quiet (Parser.documentEnd drive) := by unfold Parser.documentEnd Parser.implicitEnd; walkQ
theorem explicitDocumentContent : Quiet (Parser.explicitDocumentContent drive) := by
  unfold Parser.explicitDocumentContent
  exact bind peek fun _ => ite (bind popState fun _ => pure) (node _ _)
theorem blockMappingValue : Quiet (Parser.blockMappingValue drive) := by
  have := node (drive := drive) true .Value
  unfold Parser.blockMappingValue; walkQ
theorem flowSequenceEntryMappingKey : Quiet (Parser.flowSequenceEntryMappingKey drive) := by
  have := node (drive := drive) false .Key
  unfold Parser.flowSequenceEntryMappingKey; walkQ
theorem flowSequenceEntryMappingValue : Quiet (Parser.flowSequenceEntryMappingValue drive) := by
  have := node (drive := drive) false .Value
  unfold Parser.flowSequenceEntryMappingValue Parser.flowPairHasValue; walkQ
theorem flowSequenceEntryMappingEnd : Quiet (Parser.flowSequenceEntryMappingEnd drive) := by
  unfold Parser.flowSequenceEntryMappingEnd; walkQ
theorem flowMappingValue (empty : Bool) : Quiet (Parser.flowMappingValue drive empty) := by
  have := node (drive := drive) false .Value
  unfold Parser.flowMappingValue; walkQ

end Quiet

/-! ## What was so when they were raised -/

theorem bind_fails {m : PM σ α} {f : α → PM σ β} {s s' : PS σ} {e : ParseError} (h : (m >>= f) s = (.err e, s')) :
    m s = (.err e, s') ∨ ∃ a s1, m s = (.ok a, s1) ∧ f a s1 = (.err e, s') := by
  simp only [bind, SO.bind] at h
  split at h
  · rename_i a s1 hm
    exact .inr ⟨a, s1, hm, h⟩
  · rename_i e' s1 hm
    simp only [Prod.mk.injEq, Out.err.injEq] at h
    obtain ⟨rfl, rfl⟩ := h
    exact .inl hm
  · simp at h
  · simp at h

theorem Quiet.not {m : PM σ α} (h : Quiet m) {s s' : PS σ} {e : ParseError} (he : Stays e) (k : m s = (.err e, s')) : False :=
  h s e (by rw [k]) he

theorem popFlowEntry_fails {first : Bool} {t : TokenEntry} {s s' : PS σ} {e err : ParseError} (he : Stays e)
    (h : popFlowEntry drive first t err s = (.err e, s')) : first = false ∧ t.marker ≠ .FlowEntry ∧ e = err ∧ s' = s := by
  unfold popFlowEntry at h
  split at h
  · cases h
  · next hf =>
    split at h
    · exact ((Quiet.bind Quiet.pop fun _ => Quiet.pure).not he h).elim
    · next ht =>
      cases h
      exact ⟨by simpa using hf, ht, rfl, rfl⟩

theorem flowSequenceEntry_fails {first : Bool} {s s' : PS σ} {e : ParseError} (he : Stays e) (h : flowSequenceEntry drive first s = (.err e, s')) :
    e = .MissingFlowSequenceEntryOrEnd ∧ first = false ∧ s'.parser = s.parser ∧
      ∃ t, s'.tokens.peeked = some t ∧ t.marker ≠ .FlowSequenceEnd ∧ t.marker ≠ .FlowEntry := by
  have hn := Quiet.node (drive := drive) false .Entry
  have hq := Quiet.fetchSequenceEnd (drive := drive)
  unfold flowSequenceEntry at h
  rcases bind_fails h with h | ⟨_, s1, h1, h⟩
  · exact ((Quiet.popFirst _).not he h).elim
  rcases bind_fails h with h | ⟨t, s2, h2, h⟩
  · exact (Quiet.peek.not he h).elim
  obtain ⟨hp, hr⟩ := peek_peeked_ok h2
  split at h
  · next hm =>
    rcases bind_fails h with h | ⟨_, s3, h3, h⟩
    · obtain ⟨rfl, h5, rfl, rfl⟩ := popFlowEntry_fails he h
      refine ⟨rfl, rfl, ?_, t, hp, hm, h5⟩
      cases h1
      exact hr
    · refine (Quiet.not ?_ he h).elim
      open Quiet in walkQ
      exact hq _ _
  · refine (Quiet.not ?_ he h).elim
    open Quiet in walkQ
    exact hq _ _

theorem flowMappingKey_fails {first : Bool} {s s' : PS σ} {e : ParseError} (he : Stays e) (h : flowMappingKey drive first s = (.err e, s')) :
    e = .MissingFlowMappingEntryOrEnd ∧ first = false ∧ s'.parser = s.parser ∧
      ∃ t, s'.tokens.peeked = some t ∧ t.marker ≠ .FlowMappingEnd ∧ t.marker ≠ .FlowEntry := by
  have hn := Quiet.node (drive := drive) false .Key
  have hq := Quiet.fetchMappingEnd (drive := drive)
  unfold flowMappingKey at h
  rcases bind_fails h with h | ⟨_, s1, h1, h⟩
  · exact ((Quiet.popFirst _).not he h).elim
  rcases bind_fails h with h | ⟨t, s2, h2, h⟩
  · exact (Quiet.peek.not he h).elim
  obtain ⟨hp, hr⟩ := peek_peeked_ok h2
  split at h
  · next hm =>
    rcases bind_fails h with h | ⟨_, s3, h3, h⟩
    · obtain ⟨rfl, h5, rfl, rfl⟩ := popFlowEntry_fails he h
      refine ⟨rfl, rfl, ?_, t, hp, hm, h5⟩
      cases h1
      exact hr
    · refine (Quiet.not ?_ he h).elim
      open Quiet in walkQ
      exact hq _ _
  · refine (Quiet.not ?_ he h).elim
    open Quiet in walkQ
    exact hq _ _

theorem blockSequenceEntry_fails {first : Bool} {s s' : PS σ} {e : ParseError} (he : Stays e) (h : blockSequenceEntry drive first s = (.err e, s')) :
    e = .MissingBlockEntry ∧ (first = false → s'.parser = s.parser ∧
      ∃ t, s'.tokens.peeked = some t ∧ t.marker ≠ .BlockEntry ∧ t.marker ≠ .BlockEnd) := by
  have hn := Quiet.node (drive := drive) true .Entry
  unfold blockSequenceEntry at h
  rcases bind_fails h with h | ⟨_, s1, h1, h⟩
  · exact ((Quiet.popFirst _).not he h).elim
  rcases bind_fails h with h | ⟨t, s2, h2, h⟩
  · exact (Quiet.peek.not he h).elim
  obtain ⟨hp, hr⟩ := peek_peeked_ok h2
  generalize hk : t.marker = m at h
  cases m
  case BlockEntry =>
    refine (Quiet.not ?_ he h).elim
    open Quiet in walkQ
  case BlockEnd =>
    refine (Quiet.not ?_ he h).elim
    open Quiet in walkQ
  all_goals
    cases h
    refine ⟨rfl, ?_⟩
    rintro rfl
    cases h1
    exact ⟨hr, t, hp, by rw [hk]; nofun, by rw [hk]; nofun⟩

theorem blockMappingKey_fails {first : Bool} {s s' : PS σ} {e : ParseError} (he : Stays e) (h : blockMappingKey drive first s = (.err e, s')) :
    e = .MissingKey ∧ (first = false → s'.parser = s.parser ∧
      ∃ t, s'.tokens.peeked = some t ∧ t.marker ≠ .Key ∧ t.marker ≠ .BlockEnd) := by
  have hn := Quiet.node (drive := drive) true .Key
  unfold blockMappingKey at h
  rcases bind_fails h with h | ⟨_, s1, h1, h⟩
  · exact ((Quiet.peekPopFirst _).not he h).elim
  rcases bind_fails h with h | ⟨t, s2, h2, h⟩
  · exact (Quiet.peek.not he h).elim
  obtain ⟨hp, hr⟩ := peek_peeked_ok h2
  generalize hk : t.marker = m at h
  cases m
  case Key =>
    refine (Quiet.not ?_ he h).elim
    open Quiet in walkQ
  case BlockEnd =>
    refine (Quiet.not ?_ he h).elim
    open Quiet in walkQ
  all_goals
    cases h
    refine ⟨rfl, ?_⟩
    rintro rfl
    cases h1
    exact ⟨hr, t, hp, by rw [hk]; nofun, by rw [hk]; nofun⟩

/-- Errors that say that there is no next entry in a collection in flow style. -/
inductive Flow : ParseError → Prop where
  | seq : Flow .MissingFlowSequenceEntryOrEnd
  | map : Flow .MissingFlowMappingEntryOrEnd

theorem stateTransition_fails {fuel : Nat} {s s' : PS σ} {e : ParseError} (he : Stays e) (hd : s.parser.done = false)
    (hf : Flow e ∨ later s.parser.state.top = true) (h : stateTransition drive fuel s = (.err e, s')) : Blocked e s' := by
  unfold stateTransition at h
  have hget : ∀ {α : Type} (k : PS σ → PM σ α), (do let s ← SO.get; k s : PM σ α) s = k s s := fun _ => rfl
  rw [hget] at h
  cases ht : s.parser.state.top with
  | BlockSequenceEntry f =>
    rw [ht] at h hf
    obtain ⟨rfl, h1⟩ := blockSequenceEntry_fails he h
    obtain rfl : f = false := by
      rcases hf with hf | hf
      · cases hf
      · cases f
        · rfl
        · cases hf
    obtain ⟨h1, t, h2, h3, h4⟩ := h1 rfl
    exact ⟨h1 ▸ hd, t, h2, by rw [h1, ht]; exact .blockSeq h3 h4⟩
  | BlockMappingKey f =>
    rw [ht] at h hf
    obtain ⟨rfl, h1⟩ := blockMappingKey_fails he h
    obtain rfl : f = false := by
      rcases hf with hf | hf
      · cases hf
      · cases f
        · rfl
        · cases hf
    obtain ⟨h1, t, h2, h3, h4⟩ := h1 rfl
    exact ⟨h1 ▸ hd, t, h2, by rw [h1, ht]; exact .blockMap h3 h4⟩
  | FlowSequenceEntry f =>
    rw [ht] at h
    obtain ⟨rfl, rfl, h1, t, h2, h3, h4⟩ := flowSequenceEntry_fails he h
    exact ⟨h1 ▸ hd, t, h2, by rw [h1, ht]; exact .flowSeq h3 h4⟩
  | FlowMappingKey f =>
    rw [ht] at h
    obtain ⟨rfl, rfl, h1, t, h2, h3, h4⟩ := flowMappingKey_fails he h
    exact ⟨h1 ▸ hd, t, h2, by rw [h1, ht]; exact .flowMap h3 h4⟩
  | StreamStart => rw [ht] at h; exact (Quiet.streamStart.not he h).elim
  | DocumentStart i f => rw [ht] at h; exact ((Quiet.documentStart _ _ _).not he h).elim
  | DocumentContent => rw [ht] at h; exact (Quiet.explicitDocumentContent.not he h).elim
  | DocumentEnd => rw [ht] at h; exact (Quiet.documentEnd.not he h).elim
  | BlockNode => rw [ht] at h; exact ((Quiet.node _ _).not he h).elim
  | FlowNode => rw [ht] at h; exact ((Quiet.node _ _).not he h).elim
  | BlockMappingValue => rw [ht] at h; exact (Quiet.blockMappingValue.not he h).elim
  | FlowSequenceMappingKey => rw [ht] at h; exact (Quiet.flowSequenceEntryMappingKey.not he h).elim
  | FlowSequenceMappingValue => rw [ht] at h; exact (Quiet.flowSequenceEntryMappingValue.not he h).elim
  | FlowSequenceMappingEnd => rw [ht] at h; exact (Quiet.flowSequenceEntryMappingEnd.not he h).elim
  | FlowMappingValue f => rw [ht] at h; exact ((Quiet.flowMappingValue _).not he h).elim
  | StreamEnd => rw [ht] at h; exact (Quiet.streamEnd.not he h).elim

/-- A collection that was left is not at its first entry. -/
def Rest (m : StateMachine) : Prop := ∀ q ∈ m.stack, later q = true

theorem rest_skip {m m' : StateMachine} {d : Bool} (h : Step m none m' d) (hr : Rest m) : later m'.top = true ∧ Rest m' := by
  cases h with
  | docNone => exact ⟨rfl, hr⟩
  | contentEmpty =>
    rename_i ss
    cases ss with
    | nil => exact ⟨rfl, hr⟩
    | cons q ss => exact ⟨hr q List.mem_cons_self, fun x hx => hr x (List.mem_cons_of_mem _ hx)⟩

theorem nextEventLoop_fails {fuel n : Nat} {s s' : PS σ} {e : ParseError} (he : Stays e)
    (hf : Flow e ∨ later s.parser.state.top = true ∧ Rest s.parser.state) (h : nextEventLoop drive fuel n s = (.err e, s')) : Blocked e s' := by
  induction n generalizing s with
  | zero => cases h
  | succ n ih =>
    cases hd : s.parser.done with
    | true => simp [nextEventLoop, bind, SO.bind, SO.get, hd, pure, SO.pure] at h
    | false =>
      rw [nextEventLoop_succ hd] at h
      cases hs : stateTransition drive fuel s with
      | mk o s1 =>
        rw [hs] at h
        cases o with
        | ok ev =>
          cases ev with
          | some ev => cases h
          | none =>
            refine ih ?_ h
            rcases hf with hf | ⟨hf, hr⟩
            · exact .inl hf
            · exact .inr (rest_skip (wp_ok (stateTransition_spec srcOk_true hd) hs).step hr)
        | err x =>
          cases h
          exact stateTransition_fails he hd (hf.imp_right And.left) hs
        | panic => cases h
        | diverge => cases h

end Yary.Again
