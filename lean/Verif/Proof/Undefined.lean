import Verif.Proof.Client
import Verif.Proof.Erase

/-! # Tags that are not defined: what a call that reports one has done -/

namespace Yary.Undefined

open Spec

variable {σ : Type} {drive : Drive σ} {α β : Type}

/-- The same, with other directives. -/
def put (d : Directives) (s : PS σ) : PS σ := { s with parser := { s.parser with directives := d } }

theorem put_self (s : PS σ) : put s.parser.directives s = s := rfl
theorem put_dirs (d : Directives) (s : PS σ) : (put d s).parser.directives = d := rfl

/-- Directives are neither looked at nor changed, and no tag is found to be undefined. -/
structure Plain (m : PM σ α) : Prop where
  free : ∀ s d, m (put d s) = ((m s).1, put d (m s).2)
  calm : ∀ s, (m s).1 ≠ .err .UndefinedTag

theorem Plain.same {m : PM σ α} (h : Plain m) (s : PS σ) : (m s).2.parser.directives = s.parser.directives := by
  have := h.free s s.parser.directives
  rw [put_self] at this
  rw [this]
  rfl

namespace Plain

theorem bind {m : PM σ α} {f : α → PM σ β} (h : Plain m) (h' : ∀ a, Plain (f a)) : Plain (m >>= f) := by
  constructor
  · intro s d
    show SO.bind m f (put d s) = ((SO.bind m f s).1, put d (SO.bind m f s).2)
    unfold SO.bind
    rw [h.free s d]
    generalize m s = r
    obtain ⟨o, s1⟩ := r
    cases o with
    | ok a => exact (h' a).free s1 d
    | _ => rfl
  · intro s
    show (SO.bind m f s).1 ≠ _
    unfold SO.bind
    have := h.calm s
    generalize m s = r at this
    obtain ⟨o, s1⟩ := r
    cases o with
    | ok a => exact (h' a).calm s1
    | err e => exact fun h => this (by simpa using h)
    | panic => exact nofun
    | diverge => exact nofun

theorem pure {a : α} : Plain (Pure.pure a : PM σ α) := ⟨fun _ _ => rfl, fun _ => nofun⟩
theorem fail {e : ParseError} (h : e ≠ .UndefinedTag) : Plain (SO.fail e : PM σ α) := ⟨fun _ _ => rfl, fun _ h' => h (by cases h'; rfl)⟩
theorem panic : Plain (SO.panic : PM σ α) := ⟨fun _ _ => rfl, fun _ => nofun⟩
theorem diverge : Plain (SO.diverge : PM σ α) := ⟨fun _ _ => rfl, fun _ => nofun⟩
theorem ite {c : Prop} [Decidable c] {m m' : PM σ α} (h : Plain m) (h' : Plain m') : Plain (if c then m else m') := by split <;> assumption
theorem setTop {st : State} : Plain (PM.setTop st : PM σ Unit) := ⟨fun _ _ => rfl, fun _ => nofun⟩
theorem pushState {st : State} : Plain (PM.pushState st : PM σ Unit) := ⟨fun _ _ => rfl, fun _ => nofun⟩
theorem popState : Plain (PM.popState : PM σ Unit) := ⟨fun _ _ => rfl, fun _ => nofun⟩

theorem op (op : ROp) : Plain (PM.onTokens fun p : PeekReader σ => op.run drive p) := by
  constructor
  · intro s d
    simp only [PM.onTokens, put]
    generalize op.run drive s.tokens = r
    obtain ⟨o, p⟩ := r
    cases o <;> rfl
  · intro s
    simp only [PM.onTokens]
    generalize op.run drive s.tokens = r
    obtain ⟨o, p⟩ := r
    cases o with
    | err e => cases e <;> exact nofun
    | _ => exact nofun

theorem peekMaybe : Plain (PM.peekMaybe drive) := op .peek
theorem peek : Plain (PM.peek drive) := bind peekMaybe fun t => by
  cases t with
  | none => exact fail nofun
  | some e => exact pure
theorem pop : Plain (PM.pop drive) := bind (op .pop) fun t => by
  cases t with
  | none => exact fail nofun
  | some e => exact pure

/-- Walk over a handler. -/
syntax "walkP" : tactic
/-- What is known of handlers. -/
syntax "knownP" : tactic
macro_rules
  | `(tactic| knownP) => `(tactic| first
      | exact pure | exact fail nofun | exact panic | exact diverge | exact peek | exact pop | exact peekMaybe | exact setTop
      | exact pushState | exact popState | assumption)
macro_rules
  | `(tactic| walkP) => `(tactic| repeat' (first | knownP | with_reducible refine ite ?_ ?_ | with_reducible refine bind ?_ fun _ => ?_ | split))

theorem consumeStreamStart : Plain (Parser.consumeStreamStart drive) := by unfold Parser.consumeStreamStart; walkP
theorem consumeStreamEnd : Plain (Parser.consumeStreamEnd drive) := by unfold Parser.consumeStreamEnd; walkP
theorem consumeVersion : Plain (Parser.consumeVersion drive) := by unfold Parser.consumeVersion; walkP
theorem consumeTagDirective : Plain (Parser.consumeTagDirective drive) := by unfold Parser.consumeTagDirective; walkP
theorem consumeAlias : Plain (Parser.consumeAlias drive) := by unfold Parser.consumeAlias; walkP
theorem consumeAnchor : Plain (Parser.consumeAnchor drive) := by unfold Parser.consumeAnchor; walkP
theorem consumeTag : Plain (Parser.consumeTag drive) := by unfold Parser.consumeTag; walkP
theorem consumeScalar : Plain (Parser.consumeScalar drive) := by unfold Parser.consumeScalar; walkP

theorem scanDirectivesLoop : ∀ fuel stop seen dir, Plain (Parser.scanDirectivesLoop drive fuel stop seen dir) := by
  intro fuel
  induction fuel with
  | zero => intro _ _ _; exact diverge
  | succ fuel ih =>
    intro stop seen dir
    have h1 := @consumeVersion _ drive
    have h2 := @consumeTagDirective _ drive
    unfold Parser.scanDirectivesLoop
    walkP
    all_goals exact ih _ _ _

theorem scanDocumentDirectives (fuel : Nat) : Plain (Parser.scanDocumentDirectives drive fuel) := by
  unfold Parser.scanDocumentDirectives
  exact bind peek fun _ => bind (scanDirectivesLoop _ _ _ _) fun _ => pure

theorem fetchAnchor (n : Nat) : Plain (Parser.fetchAnchor drive n) := by
  have := @consumeAnchor _ drive
  unfold Parser.fetchAnchor; walkP
theorem fetchTag (n : Nat) : Plain (Parser.fetchTag drive n) := by
  have := @consumeTag _ drive
  unfold Parser.fetchTag; walkP
theorem fetchSequenceEnd (a b : Nat) : Plain (Parser.fetchSequenceEnd drive a b) := by
  unfold Parser.fetchSequenceEnd; walkP
theorem fetchMappingEnd (a b : Nat) : Plain (Parser.fetchMappingEnd drive a b) := by
  unfold Parser.fetchMappingEnd; walkP

theorem nodeProperties (m : Marker) (n : Nat) : Plain (Parser.nodeProperties drive m n) := by
  unfold Parser.nodeProperties
  split
  · exact bind (fetchAnchor _) fun _ => bind (fetchTag _) fun _ => pure
  · exact bind (fetchTag _) fun _ => bind (fetchAnchor _) fun _ => pure
  · exact pure

theorem nodeContent (block : Bool) (kind : NodeKind) (n : Nat) (anchor : Option Str) (tag : Option (Str × Str)) :
    Plain (Parser.nodeContent drive block kind n anchor tag) := by
  have := @consumeScalar _ drive
  unfold Parser.nodeContent
  refine bind peek fun e => ?_
  dsimp only
  walkP

theorem nodeEvent (block : Bool) (kind : NodeKind) : Plain (Parser.nodeEvent drive block kind) := by
  unfold Parser.nodeEvent
  exact bind peek fun _ => ite (bind popState fun _ => bind consumeAlias fun _ => pure) (bind (nodeProperties _ _) fun _ => nodeContent _ _ _ _ _)

theorem skipDocumentEnds : ∀ fuel, Plain (Parser.skipDocumentEnds drive fuel) := by
  intro fuel
  induction fuel with
  | zero => exact diverge
  | succ fuel ih => exact bind peek fun _ => ite (bind pop fun _ => ih) pure

theorem skipEndsIf (fuel : Nat) (b : Bool) : Plain (Parser.skipEndsIf drive fuel b) := ite pure (skipDocumentEnds _)

theorem documentMarker : Plain (Parser.documentMarker drive) := by
  unfold Parser.documentMarker; walkP
theorem implicitEnd (e : TokenEntry) : Plain (Parser.implicitEnd drive e) := by
  unfold Parser.implicitEnd; walkP
theorem popFirst (first : Bool) : Plain (Parser.popFirst drive first) := by
  unfold Parser.popFirst; walkP
theorem peekPopFirst (first : Bool) : Plain (Parser.peekPopFirst drive first) := by
  unfold Parser.peekPopFirst; walkP
theorem popFlowEntry (first : Bool) (e : TokenEntry) {err : ParseError} (h : err ≠ .UndefinedTag) :
    Plain (Parser.popFlowEntry drive first e err) := by
  unfold Parser.popFlowEntry
  exact ite pure (ite (bind pop fun _ => pure) (fail h))
theorem flowPairHasValue (e : TokenEntry) : Plain (Parser.flowPairHasValue drive e) := by
  unfold Parser.flowPairHasValue; walkP

end Plain

/-- What a call has done when it returns no event. If the cause is an undefined tag, it is the call that returns the event with it, where it is
defined. -/
structure Ev (m : PM σ (Option Event)) : Prop where
  same : ∀ s, (∀ e, (m s).1 ≠ .ok (some e)) → (m s).2.parser.directives = s.parser.directives
  skip : ∀ s, (m s).1 = .ok none → ∀ d, m (put d s) = (.ok none, put d (m s).2)
  undef : ∀ s, (m s).1 = .err .UndefinedTag → ∃ d e h x, m (put d s) = (.ok (some e), put d (m s).2) ∧ tagOf e.data = some (h, x) ∧
    (s.parser.directives.tags.get h).isSome = false

namespace Ev

theorem bind {m : PM σ α} {f : α → PM σ (Option Event)} (h : Plain m) (h' : ∀ a, Ev (f a)) : Ev (m >>= f) := by
  have hs := h.same
  have hf := h.free
  have hc := h.calm
  constructor
  · intro s
    specialize hs s
    show (∀ e, (SO.bind m f s).1 ≠ _) → (SO.bind m f s).2.parser.directives = _
    unfold SO.bind
    generalize m s = r at hs
    obtain ⟨o, s1⟩ := r
    cases o with
    | ok a => exact fun k => ((h' a).same s1 k).trans hs
    | _ => exact fun _ => hs
  · intro s
    specialize hf s
    show (SO.bind m f s).1 = _ → ∀ d, SO.bind m f (put d s) = (_, put d (SO.bind m f s).2)
    unfold SO.bind
    simp only [hf]
    generalize m s = r
    obtain ⟨o, s1⟩ := r
    cases o with
    | ok a => exact (h' a).skip s1
    | _ => exact nofun
  · intro s
    specialize hf s
    specialize hc s
    specialize hs s
    show (SO.bind m f s).1 = _ → ∃ d e h x, SO.bind m f (put d s) = (_, put d (SO.bind m f s).2) ∧ _
    unfold SO.bind
    simp only [hf]
    generalize m s = r at hc hs
    obtain ⟨o, s1⟩ := r
    cases o with
    | ok a =>
      intro k
      have := (h' a).undef s1 k
      rw [show s1.parser.directives = s.parser.directives from hs] at this
      exact this
    | err e => exact fun k => absurd (show Out.err e = _ by cases k; rfl) hc
    | panic => exact nofun
    | diverge => exact nofun

theorem some {e : Event} : Ev (Pure.pure (some e) : PM σ (Option Event)) := ⟨fun _ h => absurd rfl (h e), fun _ => nofun, fun _ => nofun⟩
theorem none : Ev (Pure.pure none : PM σ (Option Event)) := ⟨fun _ _ => rfl, fun _ _ _ => rfl, fun _ => nofun⟩
theorem fail {e : ParseError} (h : e ≠ .UndefinedTag) : Ev (SO.fail e : PM σ (Option Event)) :=
  ⟨fun _ _ => rfl, fun _ => nofun, fun _ h' => absurd (by cases h'; rfl) h⟩
theorem diverge : Ev (SO.diverge : PM σ (Option Event)) := ⟨fun _ _ => rfl, fun _ => nofun, fun _ => nofun⟩
theorem ite {c : Prop} [Decidable c] {m m' : PM σ (Option Event)} (h : Ev m) (h' : Ev m') : Ev (if c then m else m') := by split <;> assumption
theorem withDirs {d : Directives} {e : Event} : Ev (do Parser.setDirectives d; Pure.pure (Option.some e) : PM σ (Option Event)) :=
  ⟨fun _ h => absurd rfl (h e), fun _ => nofun, fun _ => nofun⟩

/-- Looking at what the directives are not part of. -/
theorem look {f : PS σ → PM σ (Option Event)} (h : ∀ s d, f (put d s) = f s) (h' : ∀ s, Ev (f s)) : Ev (SO.get >>= f) := by
  constructor
  · exact fun s => (h' s).same s
  · intro s k d
    show f (put d s) (put d s) = _
    rw [h]
    exact (h' s).skip s k d
  · intro s k
    obtain ⟨d, k'⟩ := (h' s).undef s k
    refine ⟨d, ?_⟩
    show ∃ e h x, f (put d s) (put d s) = _ ∧ _
    rw [h]
    exact k'

theorem validateTag_err {tags : TagMap} {tag : Option (Str × Str)} {b : Bool} (h : Parser.validateTag tags tag b = .err .UndefinedTag) :
    ∃ n x, tag = .some (n, x) ∧ (tags.get n).isSome = false ∧ ∀ p, Parser.validateTag [(n, p)] tag b = .ok tag := by
  unfold Parser.validateTag at h
  split at h
  · cases h
  · next n x =>
    dsimp only at h
    split at h
    · cases h
    · split at h
      · next h1 h2 =>
        refine ⟨n, x, rfl, by simpa using h2, fun p => ?_⟩
        unfold Parser.validateTag
        simp only [Bool.and_eq_true, Bool.not_not, beq_iff_eq, List.isEmpty_iff, not_and] at h1
        simpa [TagMap.get] using h1
      · cases h

theorem validate_err {tags : TagMap} {e : Event} (h : Parser.validateEventTag tags e = .err .UndefinedTag) :
    ∃ n x, tagOf e.data = .some (n, x) ∧ (tags.get n).isSome = false ∧ ∀ p, Parser.validateEventTag [(n, p)] e = .ok e := by
  obtain ⟨a, b, d⟩ := e
  unfold Parser.validateEventTag at h ⊢
  cases d with
  | Scalar node c =>
    dsimp only at h ⊢
    rcases Out.bind_eq_err.1 h with h | ⟨_, _, h⟩
    · obtain ⟨n, x, h1, h2, h3⟩ := validateTag_err h
      exact ⟨n, x, h1, h2, fun p => by rw [h3]; rfl⟩
    · cases h
  | SequenceStart node =>
    dsimp only at h ⊢
    rcases Out.bind_eq_err.1 h with h | ⟨_, _, h⟩
    · obtain ⟨n, x, h1, h2, h3⟩ := validateTag_err h
      exact ⟨n, x, h1, h2, fun p => by rw [h3]; rfl⟩
    · cases h
  | MappingStart node =>
    dsimp only at h ⊢
    rcases Out.bind_eq_err.1 h with h | ⟨_, _, h⟩
    · obtain ⟨n, x, h1, h2, h3⟩ := validateTag_err h
      exact ⟨n, x, h1, h2, fun p => by rw [h3]; rfl⟩
    · cases h
  | _ => cases h

theorem node (block : Bool) (kind : NodeKind) : Ev (Parser.node drive block kind) := by
  unfold Parser.node
  refine bind (Plain.nodeEvent _ _) fun e => ?_
  constructor
  · intro s _
    show (SO.bind (SO.lift (Parser.validateEventTag s.parser.directives.tags e)) _ s).2.parser.directives = _
    unfold SO.bind SO.lift
    cases Parser.validateEventTag s.parser.directives.tags e <;> rfl
  · intro s
    show (SO.bind (SO.lift (Parser.validateEventTag s.parser.directives.tags e)) _ s).1 = _ → _
    unfold SO.bind SO.lift
    cases Parser.validateEventTag s.parser.directives.tags e <;> exact nofun
  · intro s
    show (SO.bind (SO.lift (Parser.validateEventTag s.parser.directives.tags e)) _ s).1 = _ →
      ∃ d e' h x, SO.bind (SO.lift (Parser.validateEventTag d.tags e)) (fun ev => Pure.pure (Option.some ev)) (put d s) =
        (Out.ok (Option.some e'), put d (SO.bind (SO.lift (Parser.validateEventTag s.parser.directives.tags e))
          (fun ev => (Pure.pure (Option.some ev) : PM σ (Option Event))) s).2) ∧ _
    unfold SO.bind SO.lift
    cases hv : Parser.validateEventTag s.parser.directives.tags e with
    | err x =>
      intro k
      simp only [Out.err.injEq] at k
      subst k
      obtain ⟨n, x, h1, h2, h3⟩ := validate_err hv
      refine ⟨{ version := s.parser.directives.version, tags := [(n, [])] }, e, n, x, ?_, h1, h2⟩
      simp only [h3]
      rfl
    | _ => exact nofun

/-- Walk over a handler. -/
syntax "walkE" : tactic
/-- What is known of handlers. -/
syntax "knownE" : tactic
macro_rules
  | `(tactic| knownE) => `(tactic| first
      | assumption | exact some | exact none | exact fail nofun | exact withDirs
      | with_reducible exact node _ _ | exact Plain.peek | exact Plain.pop | exact Plain.setTop | exact Plain.pushState
      | exact Plain.popState | with_reducible exact Plain.fetchSequenceEnd _ _ | with_reducible exact Plain.fetchMappingEnd _ _)
macro_rules
  | `(tactic| walkE) => `(tactic| repeat' (first | knownE | with_reducible refine ite ?_ ?_ | with_reducible refine bind ?_ fun _ => ?_ | split))

theorem streamStart : Ev (Parser.streamStart drive) := by
  have := @Plain.consumeStreamStart _ drive
  unfold Parser.streamStart; walkE

theorem plain_done : Plain (SO.modify (ε := ParseError) fun s : PS σ => { s with parser := { s.parser with done := true } }) :=
  ⟨fun _ _ => rfl, fun _ => nofun⟩

theorem streamEnd : Ev (Parser.streamEnd drive) := by
  have h1 := @Plain.consumeStreamEnd _ drive
  have h2 := @plain_done σ
  unfold Parser.streamEnd
  refine look (fun _ _ => rfl) fun s => ?_
  walkE

theorem documentStart (fuel : Nat) (implicit first : Bool) : Ev (Parser.documentStart drive fuel implicit first) := by
  have h1 := @Plain.scanDocumentDirectives _ drive fuel
  have h2 := @Plain.documentMarker _ drive
  have h3 := @Plain.skipEndsIf _ drive fuel implicit
  unfold Parser.documentStart
  walkE

theorem documentEnd : Ev (Parser.documentEnd drive) := by
  have h1 := @Plain.implicitEnd _ drive
  unfold Parser.documentEnd; walkE
  exact h1 _

theorem explicitDocumentContent : Ev (Parser.explicitDocumentContent drive) := by
  unfold Parser.explicitDocumentContent
  exact bind Plain.peek fun _ => ite (bind Plain.popState fun _ => none) (node _ _)

theorem blockSequenceEntry (first : Bool) : Ev (Parser.blockSequenceEntry drive first) := by
  have h1 := @Plain.popFirst _ drive first
  unfold Parser.blockSequenceEntry
  walkE
theorem blockMappingKey (first : Bool) : Ev (Parser.blockMappingKey drive first) := by
  have h1 := @Plain.peekPopFirst _ drive first
  unfold Parser.blockMappingKey
  walkE
theorem blockMappingValue : Ev (Parser.blockMappingValue drive) := by
  unfold Parser.blockMappingValue
  walkE
theorem flowSequenceEntry (first : Bool) : Ev (Parser.flowSequenceEntry drive first) := by
  have h1 := @Plain.popFirst _ drive first
  unfold Parser.flowSequenceEntry
  walkE
  all_goals exact Plain.popFlowEntry _ _ nofun
theorem flowSequenceEntryMappingKey : Ev (Parser.flowSequenceEntryMappingKey drive) := by
  unfold Parser.flowSequenceEntryMappingKey
  walkE
theorem flowSequenceEntryMappingValue : Ev (Parser.flowSequenceEntryMappingValue drive) := by
  unfold Parser.flowSequenceEntryMappingValue
  walkE
  all_goals exact Plain.flowPairHasValue _
theorem flowSequenceEntryMappingEnd : Ev (Parser.flowSequenceEntryMappingEnd drive) := by
  unfold Parser.flowSequenceEntryMappingEnd; walkE
theorem flowMappingKey (first : Bool) : Ev (Parser.flowMappingKey drive first) := by
  have h1 := @Plain.popFirst _ drive first
  unfold Parser.flowMappingKey
  walkE
  all_goals exact Plain.popFlowEntry _ _ nofun
theorem flowMappingValue (empty : Bool) : Ev (Parser.flowMappingValue drive empty) := by
  unfold Parser.flowMappingValue
  walkE

theorem stateTransition (fuel : Nat) : Ev (Parser.stateTransition drive fuel) := by
  unfold Parser.stateTransition
  refine look (fun _ _ => rfl) fun s => ?_
  split
  · exact streamStart
  · exact documentStart _ _ _
  · exact explicitDocumentContent
  · exact documentEnd
  · exact node _ _
  · exact node _ _
  · exact blockSequenceEntry _
  · exact blockMappingKey _
  · exact blockMappingValue
  · exact flowSequenceEntry _
  · exact flowSequenceEntryMappingKey
  · exact flowSequenceEntryMappingValue
  · exact flowSequenceEntryMappingEnd
  · exact flowMappingKey _
  · exact flowMappingValue _
  · exact streamEnd

/-- One after the other, until there is an event. -/
theorem chain {m m' : PM σ (Option Event)} (h : Ev m) (h' : Ev m') :
    Ev (m >>= fun t => match t with | .some e => Pure.pure (.some e) | .none => m') := by
  have hs := h.same
  have hk := h.skip
  have hu := h.undef
  constructor
  · intro s
    specialize hs s
    show (∀ e, (SO.bind m _ s).1 ≠ _) → (SO.bind m _ s).2.parser.directives = _
    unfold SO.bind
    generalize m s = r at hs
    obtain ⟨o, s1⟩ := r
    rcases o with (_ | e) | _ | _ | _
    · exact fun k => (h'.same s1 k).trans (hs nofun)
    · exact fun k => absurd rfl (k e)
    · exact fun _ => hs nofun
    · exact fun _ => hs nofun
    · exact fun _ => hs nofun
  · intro s
    specialize hk s
    show (SO.bind m _ s).1 = _ → ∀ d, SO.bind m _ (put d s) = (_, put d (SO.bind m _ s).2)
    unfold SO.bind
    generalize m s = r at hk
    obtain ⟨o, s1⟩ := r
    rcases o with (_ | e) | _ | _ | _
    · intro k d
      rw [hk rfl d]
      exact h'.skip s1 k d
    all_goals exact nofun
  · intro s
    specialize hk s
    specialize hu s
    specialize hs s
    show (SO.bind m _ s).1 = _ → ∃ d e h x, SO.bind m _ (put d s) = (_, put d (SO.bind m _ s).2) ∧ _
    unfold SO.bind
    generalize m s = r at hk hu hs
    obtain ⟨o, s1⟩ := r
    rcases o with (_ | e) | e | _ | _
    · intro k
      obtain ⟨d, k'⟩ := h'.undef s1 k
      refine ⟨d, ?_⟩
      rw [hk rfl d]
      rw [show s1.parser.directives = s.parser.directives from hs nofun] at k'
      exact k'
    · exact nofun
    · intro k
      have : e = .UndefinedTag := by cases k; rfl
      subst this
      obtain ⟨d, e, n, x, k1, k2⟩ := hu rfl
      refine ⟨d, e, n, x, ?_, k2⟩
      rw [k1]
      rfl
    · exact nofun
    · exact nofun

theorem nextEventLoop (fuel : Nat) : ∀ n, Ev (Parser.nextEventLoop drive fuel n) := by
  intro n
  induction n with
  | zero => exact diverge
  | succ n ih =>
    unfold Parser.nextEventLoop
    exact look (fun _ _ => rfl) fun s => ite none (chain (stateTransition _) ih)

theorem nextEvent (fuel : Nat) : Ev (Parser.nextEvent drive fuel) := nextEventLoop _ _

end Ev

end Yary.Undefined
