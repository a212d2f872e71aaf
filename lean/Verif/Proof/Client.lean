import Verif.Spec.Events
import Verif.Spec.Tokens
import Verif.Proof.Run

/-!
# The parser as a client of the reader

Whatever a handler does to the tokens, it does by peeks and pops; it stops at the first of them that fails and reports that failure.
-/

namespace Yary.Client

open Spec

variable {σ : Type} {drive : Drive σ} {α β : Type}

theorem ops_append {a b : List ROp} {p : PeekReader σ} : runOps drive (a ++ b) p =
    ((runOps drive a p).1 ++ (runOps drive b (runOps drive a p).2).1, (runOps drive b (runOps drive a p).2).2) := by
  induction a generalizing p with
  | nil => rfl
  | cons op a ih => simp [runOps, ih]

theorem handed_append {a b : List (ROp × Out ReaderError (Option TokenEntry))} : handed (a ++ b) = handed a ++ handed b := by
  induction a with
  | nil => rfl
  | cons x a ih =>
    obtain ⟨op, o⟩ := x
    rcases op with _ | _ <;> rcases o with (_ | _) | _ | _ | _ <;> simp [handed, ih]

/-- How the calls of the reader ended, given what the handler reported. -/
inductive Ends : Out ParseError α → List (ROp × Out ReaderError (Option TokenEntry)) → Prop where
  | ok {a : α} {rs : List (ROp × Out ReaderError (Option TokenEntry))} (h : AllOk rs) : Ends (.ok a) rs
  | own {e : ParseError} {rs : List (ROp × Out ReaderError (Option TokenEntry))} (he : fromSource e = false) (h : AllOk rs) : Ends (.err e) rs
  | raised {e : ReaderError} {rs : List (ROp × Out ReaderError (Option TokenEntry))} {op : ROp} (h : AllOk rs) :
      Ends (.err (.ofReader e)) (rs ++ [(op, .err e)])
  | panic {rs : List (ROp × Out ReaderError (Option TokenEntry))} : Ends .panic rs
  | diverge {rs : List (ROp × Out ReaderError (Option TokenEntry))} : Ends .diverge rs

/-- The end of the stream is entered only with its token. -/
def Closes (a b : Bool) (rs : List (ROp × Out ReaderError (Option TokenEntry))) : Prop :=
  b = a ∨ b = true ∧ ∃ e ∈ handed rs, e.wrap = .Token .StreamEnd

/-- A handler which uses the reader through peeks and pops only. -/
def Client (drive : Drive σ) (m : PM σ α) : Prop := ∀ s, ∃ ops, (m s).2.tokens = (runOps drive ops s.tokens).2 ∧
  Ends (m s).1 (runOps drive ops s.tokens).1 ∧ Closes s.parser.done (m s).2.parser.done (runOps drive ops s.tokens).1

theorem allOk_append {a b : List (ROp × Out ReaderError (Option TokenEntry))} (ha : AllOk a) (hb : AllOk b) : AllOk (a ++ b) := fun x hx =>
  (List.mem_append.1 hx).elim (ha x) (hb x)

theorem allOk_nil : AllOk [] := fun _ h => by cases h

theorem Ends.after {a : List (ROp × Out ReaderError (Option TokenEntry))} {o : Out ParseError β} {b : List (ROp × Out ReaderError (Option TokenEntry))}
    (ha : AllOk a) (h : Ends o b) : Ends o (a ++ b) := by
  cases h with
  | ok h => exact .ok (allOk_append ha h)
  | own he h => exact .own he (allOk_append ha h)
  | raised h => rw [← List.append_assoc]; exact .raised (allOk_append ha h)
  | panic => exact .panic
  | diverge => exact .diverge

theorem Closes.trans {a b c : Bool} {x y : List (ROp × Out ReaderError (Option TokenEntry))} (h : Closes a b x) (h' : Closes b c y) :
    Closes a c (x ++ y) := by
  unfold Closes
  rw [handed_append]
  rcases h' with rfl | ⟨h1, e, h2, h3⟩
  · rcases h with rfl | ⟨h1, e, h2, h3⟩
    · exact .inl rfl
    · exact .inr ⟨h1, e, List.mem_append_left _ h2, h3⟩
  · exact .inr ⟨h1, e, List.mem_append_right _ h2, h3⟩

theorem bind {m : PM σ α} {f : α → PM σ β} (h : Client drive m) (h' : ∀ a, Client drive (f a)) : Client drive (m >>= f) := by
  intro s
  obtain ⟨ops, h1, h2, h3⟩ := h s
  show ∃ ops, (SO.bind m f s).2.tokens = _ ∧ Ends (SO.bind m f s).1 _ ∧ Closes s.parser.done (SO.bind m f s).2.parser.done _
  unfold SO.bind
  generalize m s = r at h1 h2 h3 ⊢
  obtain ⟨o, s1⟩ := r
  dsimp only at h1 h2 h3
  generalize hrs : (runOps drive ops s.tokens).1 = rs at h2 h3
  cases h2 with
  | @ok a _ h2 =>
    obtain ⟨ops', k1, k2, k3⟩ := h' a s1
    refine ⟨ops ++ ops', ?_⟩
    rw [ops_append, ← h1, hrs]
    exact ⟨k1, k2.after h2, h3.trans k3⟩
  | own he h2 => exact ⟨ops, h1, by rw [hrs]; exact .own he h2, by rw [hrs]; exact h3⟩
  | raised h2 => exact ⟨ops, h1, by rw [hrs]; exact .raised h2, by rw [hrs]; exact h3⟩
  | panic => exact ⟨ops, h1, .panic, by rw [hrs]; exact h3⟩
  | diverge => exact ⟨ops, h1, .diverge, by rw [hrs]; exact h3⟩

theorem pure {a : α} : Client drive (Pure.pure a : PM σ α) := fun _ => ⟨[], rfl, .ok allOk_nil, .inl rfl⟩
theorem get : Client drive (SO.get : PM σ (PS σ)) := fun _ => ⟨[], rfl, .ok allOk_nil, .inl rfl⟩
theorem fail {e : ParseError} (h : fromSource e = false) : Client drive (SO.fail e : PM σ α) := fun _ => ⟨[], rfl, .own h allOk_nil, .inl rfl⟩
theorem panic : Client drive (SO.panic : PM σ α) := fun _ => ⟨[], rfl, .panic, .inl rfl⟩
theorem diverge : Client drive (SO.diverge : PM σ α) := fun _ => ⟨[], rfl, .diverge, .inl rfl⟩
theorem ite {c : Prop} [Decidable c] {m m' : PM σ α} (h : Client drive m) (h' : Client drive m') : Client drive (if c then m else m') := by
  split <;> assumption
theorem setTop {st : State} : Client drive (PM.setTop st : PM σ Unit) := fun _ => ⟨[], rfl, .ok allOk_nil, .inl rfl⟩
theorem pushState {st : State} : Client drive (PM.pushState st : PM σ Unit) := fun _ => ⟨[], rfl, .ok allOk_nil, .inl rfl⟩
theorem popState : Client drive (PM.popState : PM σ Unit) := fun _ => ⟨[], rfl, .ok allOk_nil, .inl rfl⟩
theorem setDirectives {d : Directives} : Client drive (Parser.setDirectives d : PM σ Unit) := fun _ => ⟨[], rfl, .ok allOk_nil, .inl rfl⟩

theorem op (op : ROp) : Client drive (PM.onTokens fun p => op.run drive p) := by
  intro s
  refine ⟨[op], ?_⟩
  simp only [runOps, PM.onTokens]
  generalize op.run drive s.tokens = r
  obtain ⟨o, p⟩ := r
  cases o with
  | ok t =>
    refine ⟨rfl, .ok ?_, .inl rfl⟩
    intro x hx
    rw [List.mem_singleton.1 hx]
    exact ⟨t, rfl⟩
  | err e => exact ⟨rfl, .raised (rs := []) allOk_nil, .inl rfl⟩
  | panic => exact ⟨rfl, .panic, .inl rfl⟩
  | diverge => exact ⟨rfl, .diverge, .inl rfl⟩

theorem peekMaybe : Client drive (PM.peekMaybe drive) := op .peek
theorem peek : Client drive (PM.peek drive) := bind peekMaybe fun t => by
  cases t with
  | none => exact fail rfl
  | some e => exact pure
theorem pop : Client drive (PM.pop drive) := bind (op .pop) fun t => by
  cases t with
  | none => exact fail rfl
  | some e => exact pure

/-- Walk over a handler. -/
syntax "walk" : tactic
/-- What is known of handlers. -/
syntax "known" : tactic
macro_rules
  | `(tactic| known) => `(tactic| first
      | exact pure | exact fail rfl | exact panic | exact diverge | exact peek | exact pop | exact peekMaybe | exact get | exact setTop
      | exact pushState | exact popState | exact setDirectives | assumption)
macro_rules
  | `(tactic| walk) => `(tactic| repeat' (first | known | with_reducible refine ite ?_ ?_ | with_reducible refine bind ?_ fun _ => ?_ | split))

theorem consumeStreamStart : Client drive (Parser.consumeStreamStart drive) := by unfold Parser.consumeStreamStart; walk
theorem consumeVersion : Client drive (Parser.consumeVersion drive) := by unfold Parser.consumeVersion; walk
theorem consumeTagDirective : Client drive (Parser.consumeTagDirective drive) := by unfold Parser.consumeTagDirective; walk
theorem consumeAlias : Client drive (Parser.consumeAlias drive) := by unfold Parser.consumeAlias; walk
theorem consumeAnchor : Client drive (Parser.consumeAnchor drive) := by unfold Parser.consumeAnchor; walk
theorem consumeTag : Client drive (Parser.consumeTag drive) := by unfold Parser.consumeTag; walk
theorem consumeScalar : Client drive (Parser.consumeScalar drive) := by unfold Parser.consumeScalar; walk

theorem scanDirectivesLoop : ∀ fuel stop seen dir, Client drive (Parser.scanDirectivesLoop drive fuel stop seen dir) := by
  intro fuel
  induction fuel with
  | zero => intro _ _ _; exact diverge
  | succ fuel ih =>
    intro stop seen dir
    have h1 := @consumeVersion _ drive
    have h2 := @consumeTagDirective _ drive
    unfold Parser.scanDirectivesLoop
    walk
    all_goals exact ih _ _ _

theorem scanDocumentDirectives (fuel : Nat) : Client drive (Parser.scanDocumentDirectives drive fuel) := by
  unfold Parser.scanDocumentDirectives
  exact bind peek fun _ => bind (scanDirectivesLoop _ _ _ _) fun _ => pure

theorem fetchAnchor (n : Nat) : Client drive (Parser.fetchAnchor drive n) := by
  have := @consumeAnchor _ drive
  unfold Parser.fetchAnchor; walk
theorem fetchTag (n : Nat) : Client drive (Parser.fetchTag drive n) := by
  have := @consumeTag _ drive
  unfold Parser.fetchTag; walk
theorem fetchSequenceEnd (a b : Nat) : Client drive (Parser.fetchSequenceEnd drive a b) := by
  unfold Parser.fetchSequenceEnd; walk
theorem fetchMappingEnd (a b : Nat) : Client drive (Parser.fetchMappingEnd drive a b) := by
  unfold Parser.fetchMappingEnd; walk

theorem nodeProperties (m : Marker) (n : Nat) : Client drive (Parser.nodeProperties drive m n) := by
  unfold Parser.nodeProperties
  split
  · exact bind (fetchAnchor _) fun _ => bind (fetchTag _) fun _ => pure
  · exact bind (fetchTag _) fun _ => bind (fetchAnchor _) fun _ => pure
  · exact pure

theorem nodeContent (block : Bool) (kind : NodeKind) (n : Nat) (anchor : Option Str) (tag : Option (Str × Str)) :
    Client drive (Parser.nodeContent drive block kind n anchor tag) := by
  have := @consumeScalar _ drive
  unfold Parser.nodeContent
  refine bind peek fun e => ?_
  dsimp only
  walk

theorem nodeEvent (block : Bool) (kind : NodeKind) : Client drive (Parser.nodeEvent drive block kind) := by
  unfold Parser.nodeEvent
  exact bind peek fun _ => ite (bind popState fun _ => bind consumeAlias fun _ => pure) (bind (nodeProperties _ _) fun _ => nodeContent _ _ _ _ _)

theorem validateTag {tags : TagMap} {tag : Option (Str × Str)} {b : Bool} :
    (∃ t, Parser.validateTag tags tag b = .ok t) ∨ Parser.validateTag tags tag b = .err .UndefinedTag := by
  unfold Parser.validateTag
  split
  · exact .inl ⟨_, rfl⟩
  · dsimp only
    split
    · exact .inl ⟨_, rfl⟩
    · split
      · exact .inr rfl
      · exact .inl ⟨_, rfl⟩

theorem validateEventTag {tags : TagMap} {e : Event} :
    (∃ t, Parser.validateEventTag tags e = .ok t) ∨ Parser.validateEventTag tags e = .err .UndefinedTag := by
  unfold Parser.validateEventTag
  split
  · rcases validateTag with ⟨t, h⟩ | h <;> rw [h]
    · exact .inl ⟨_, rfl⟩
    · exact .inr rfl
  · rcases validateTag with ⟨t, h⟩ | h <;> rw [h]
    · exact .inl ⟨_, rfl⟩
    · exact .inr rfl
  · rcases validateTag with ⟨t, h⟩ | h <;> rw [h]
    · exact .inl ⟨_, rfl⟩
    · exact .inr rfl
  · exact .inl ⟨_, rfl⟩

theorem node (block : Bool) (kind : NodeKind) : Client drive (Parser.node drive block kind) := by
  unfold Parser.node
  refine bind (nodeEvent _ _) fun e => bind get fun s => bind ?_ fun _ => pure
  rcases @validateEventTag s.parser.directives.tags e with ⟨t, h⟩ | h <;> rw [h]
  · exact pure
  · exact fail rfl

macro_rules
  | `(tactic| known) => `(tactic| first | with_reducible exact node _ _ | with_reducible exact fetchSequenceEnd _ _ | with_reducible exact fetchMappingEnd _ _)

theorem streamStart : Client drive (Parser.streamStart drive) := by
  have := @consumeStreamStart _ drive
  unfold Parser.streamStart; walk

theorem streamEnd : Client drive (Parser.streamEnd drive) := by
  unfold Parser.streamEnd
  refine bind get fun s => ite pure ?_
  intro s
  refine ⟨[.pop], ?_⟩
  simp only [runOps, ROp.run, Parser.consumeStreamEnd, PM.pop, PM.onTokens, Bind.bind, SO.bind, Pure.pure, SO.modify]
  generalize s.tokens.pop drive = r
  obtain ⟨o, p⟩ := r
  cases o with
  | ok t =>
    have hok : AllOk [(ROp.pop, (Out.ok t : Out ReaderError (Option TokenEntry)))] := by
      intro x hx
      rw [List.mem_singleton.1 hx]
      exact ⟨t, rfl⟩
    cases t with
    | none => exact ⟨rfl, .own rfl hok, .inl rfl⟩
    | some e =>
      obtain ⟨w, n⟩ := e
      cases w with
      | Deferred l => exact ⟨rfl, .panic, .inl rfl⟩
      | Token t =>
        cases t with
        | StreamEnd => exact ⟨rfl, .ok hok, .inr ⟨rfl, _, List.mem_singleton.2 rfl, rfl⟩⟩
        | _ => exact ⟨rfl, .panic, .inl rfl⟩
  | err e => exact ⟨rfl, .raised (rs := []) allOk_nil, .inl rfl⟩
  | panic => exact ⟨rfl, .panic, .inl rfl⟩
  | diverge => exact ⟨rfl, .diverge, .inl rfl⟩

theorem skipDocumentEnds : ∀ fuel, Client drive (Parser.skipDocumentEnds drive fuel) := by
  intro fuel
  induction fuel with
  | zero => exact diverge
  | succ fuel ih => exact bind peek fun _ => ite (bind pop fun _ => ih) pure

theorem documentMarker : Client drive (Parser.documentMarker drive) := by
  unfold Parser.documentMarker; walk

theorem documentStart (fuel : Nat) (implicit first : Bool) : Client drive (Parser.documentStart drive fuel implicit first) := by
  have h1 := @scanDocumentDirectives _ drive fuel
  have h2 := @documentMarker _ drive
  have h3 := @skipDocumentEnds _ drive fuel
  unfold Parser.documentStart Parser.skipEndsIf
  walk

theorem documentEnd : Client drive (Parser.documentEnd drive) := by
  unfold Parser.documentEnd Parser.implicitEnd; walk

theorem explicitDocumentContent : Client drive (Parser.explicitDocumentContent drive) := by
  unfold Parser.explicitDocumentContent
  exact bind peek fun _ => ite (bind popState fun _ => pure) (node _ _)

theorem popFirst (first : Bool) : Client drive (Parser.popFirst drive first) := by
  unfold Parser.popFirst; walk
theorem peekPopFirst (first : Bool) : Client drive (Parser.peekPopFirst drive first) := by
  unfold Parser.peekPopFirst; walk

theorem blockSequenceEntry (first : Bool) : Client drive (Parser.blockSequenceEntry drive first) := by
  have h1 := @popFirst _ drive first
  unfold Parser.blockSequenceEntry
  walk
theorem blockMappingKey (first : Bool) : Client drive (Parser.blockMappingKey drive first) := by
  have h1 := @peekPopFirst _ drive first
  unfold Parser.blockMappingKey
  walk
theorem blockMappingValue : Client drive (Parser.blockMappingValue drive) := by
  unfold Parser.blockMappingValue
  walk
theorem popFlowEntry (first : Bool) (e : TokenEntry) {err : ParseError} (h : fromSource err = false) :
    Client drive (Parser.popFlowEntry drive first e err) := by
  have := fail (α := Unit) (drive := drive) h
  unfold Parser.popFlowEntry; walk
theorem flowSequenceEntry (first : Bool) : Client drive (Parser.flowSequenceEntry drive first) := by
  have h1 := @popFirst _ drive first
  unfold Parser.flowSequenceEntry
  walk
  all_goals exact popFlowEntry _ _ rfl
theorem flowSequenceEntryMappingKey : Client drive (Parser.flowSequenceEntryMappingKey drive) := by
  unfold Parser.flowSequenceEntryMappingKey
  walk
theorem flowSequenceEntryMappingValue : Client drive (Parser.flowSequenceEntryMappingValue drive) := by
  unfold Parser.flowSequenceEntryMappingValue Parser.flowPairHasValue
  walk
theorem flowSequenceEntryMappingEnd : Client drive (Parser.flowSequenceEntryMappingEnd drive) := by
  unfold Parser.flowSequenceEntryMappingEnd; walk
theorem flowMappingKey (first : Bool) : Client drive (Parser.flowMappingKey drive first) := by
  have h1 := @popFirst _ drive first
  unfold Parser.flowMappingKey
  walk
  all_goals exact popFlowEntry _ _ rfl
theorem flowMappingValue (empty : Bool) : Client drive (Parser.flowMappingValue drive empty) := by
  unfold Parser.flowMappingValue
  walk

theorem stateTransition (fuel : Nat) : Client drive (Parser.stateTransition drive fuel) := by
  unfold Parser.stateTransition
  refine bind get fun s => ?_
  split
  · exact streamStart
  · exact documentStart _ _ _
  · exact explicitDocumentContent
  · exact documentEnd
  · exact node _ _
  · exact node _ _
  · exact blockSequenceEntry _
  · exact blockMappingKey _
  · exact blockMappingValue
  · exact flowSequenceEntry _
  · exact flowSequenceEntryMappingKey
  · exact flowSequenceEntryMappingValue
  · exact flowSequenceEntryMappingEnd
  · exact flowMappingKey _
  · exact flowMappingValue _
  · exact streamEnd

theorem nextEventLoop (fuel : Nat) : ∀ n, Client drive (Parser.nextEventLoop drive fuel n) := by
  intro n
  induction n with
  | zero => exact diverge
  | succ n ih =>
    refine bind get fun s => ite pure (bind (stateTransition _) fun t => ?_)
    cases t with
    | none => exact ih
    | some e => exact pure

/-- A call of an iterator. -/
theorem nextEvent (fuel : Nat) : Client drive (Parser.nextEvent drive fuel) := nextEventLoop _ _

end Yary.Client
