import Verif.Proof.Moved.Rel
import Verif.Proof.Moved.Block
import Verif.Proof.Fuel
import Verif.Spec.Events

/-! # Two parsers, one further on -/

namespace Yary

/-- A token further on. -/
def TokenEntry.mv (w l : Nat) (e : TokenEntry) : TokenEntry := ⟨e.wrap.mv w l, e.readAt + w⟩

namespace Moved

open Spec

variable {σ τ : Type} {α β γ δ : Type} {w l : Nat}

/-- Related parsers, on readers in related states. -/
def PSP (P : Parser → Parser → Prop) (S : PeekReader σ → PeekReader τ → Prop) (s : PS σ) (s' : PS τ) : Prop := P s.parser s'.parser ∧ S s.tokens s'.tokens

/-- The same parser, on readers in related states. -/
abbrev PSR (S : PeekReader σ → PeekReader τ → Prop) (s : PS σ) (s' : PS τ) : Prop := PSP Eq S s s'

/-- Errors after which nothing is said of the readers; if `V`, neither when a call does not return. -/
def Cut (V : Prop) : Option ParseError → Prop
  | some e => fromSource e = true
  | none => V

/-- Two handlers which do the same further on, and keep the parsers related. -/
abbrev BothP (V : Prop) (P : Parser → Parser → Prop) (S : PeekReader σ → PeekReader τ → Prop) (Q : α → β → Prop) (x : PM σ α) (y : PM τ β) : Prop :=
  Rel (Cut V) (PSP P S) Q x y

/-- Two handlers which do the same further on; nothing is said of the readers after an error of the source. -/
abbrev Both (V : Prop) (S : PeekReader σ → PeekReader τ → Prop) (Q : α → β → Prop) (x : PM σ α) (y : PM τ β) : Prop :=
  Rel (Cut V) (PSR S) Q x y

/-- Readers in related states report the same tokens further on. -/
def Tied (V : Prop) (w l : Nat) (S : PeekReader σ → PeekReader τ → Prop) (d : Drive σ) (d' : Drive τ) : Prop :=
  ∀ op : ROp, Rel (fun e => e = none → V) S (fun a b => b = Option.map (TokenEntry.mv w l) a) (fun p => op.run d p) (fun p => op.run d' p)

variable {V : Prop} {P : Parser → Parser → Prop} {S : PeekReader σ → PeekReader τ → Prop} {d : Drive σ} {d' : Drive τ} {Q : α → β → Prop} {Q' : γ → δ → Prop}

theorem mv_marker (e : TokenEntry) : (e.mv w l).marker = e.marker := by
  obtain ⟨wr, r⟩ := e
  cases wr <;> rfl

theorem mv_readAt (e : TokenEntry) : (e.mv w l).readAt = e.readAt + w := rfl

/-- The same token, further on. -/
structure Ents (w l : Nat) (e e' : TokenEntry) : Prop where
  eq : e' = e.mv w l
  marker : e'.marker = e.marker
  readAt : e'.readAt = e.readAt + w

theorem ents (e : TokenEntry) : Ents w l e (e.mv w l) := ⟨rfl, mv_marker e, rfl⟩

theorem Both.onState (f : StateMachine → StateMachine) : Both V S Eq (PM.onState f) (PM.onState f) :=
  Rel.modify fun s t h => ⟨by dsimp only; rw [h.1], h.2⟩

theorem Both.setTop (st : State) : Both V S Eq (PM.setTop st) (PM.setTop st) := .onState _
theorem Both.pushState (st : State) : Both V S Eq (PM.pushState st) (PM.pushState st) := .onState _
theorem Both.popState : Both V S Eq PM.popState PM.popState := .onState _
theorem Both.setDirectives (dir : Directives) : Both V S Eq (Parser.setDirectives dir) (Parser.setDirectives dir) :=
  Rel.modify fun s t h => ⟨by dsimp only; rw [h.1], h.2⟩

theorem onTokens_mv {f : PeekReader σ → Out ReaderError α × PeekReader σ} {g : PeekReader τ → Out ReaderError β × PeekReader τ}
    (h : ∀ p p', S p p' → Pair (fun e => e = none → V) S Q (f p) (g p')) : BothP V P S Q (PM.onTokens f) (PM.onTokens g) := by
  intro s t hs
  have h := h s.tokens t.tokens hs.2
  unfold PM.onTokens
  generalize f s.tokens = x at h ⊢
  generalize g t.tokens = y at h ⊢
  cases h with
  | ok hq h => exact .ok hq ⟨hs.1, h⟩
  | @err e _ _ h => exact .err (.inl (by cases e <;> rfl))
  | panic => exact .panic
  | diverge h => exact .diverge (h.imp (fun h => h rfl) fun h => by obtain ⟨o, t⟩ := y; cases h; rfl)

theorem Both.op (hT : Tied V w l S d d') (op : ROp) :
    BothP V P S (fun a b => b = Option.map (TokenEntry.mv w l) a) (PM.onTokens (fun p => op.run d p)) (PM.onTokens (fun p => op.run d' p)) :=
  onTokens_mv (fun p p' h => hT op p p' h)

theorem Both.peekMaybe (hT : Tied V w l S d d') : BothP V P S (fun a b => b = Option.map (TokenEntry.mv w l) a) (PM.peekMaybe d) (PM.peekMaybe d') := Both.op hT .peek

theorem Both.peek (hT : Tied V w l S d d') : BothP V P S (Ents w l) (PM.peek d) (PM.peek d') := by
  refine .bind (Both.peekMaybe hT) fun a b h => ?_
  subst h
  cases a with
  | none => exact .fail
  | some h => exact .pure (ents _)

theorem Both.pop (hT : Tied V w l S d d') : BothP V P S (Ents w l) (PM.pop d) (PM.pop d') := by
  refine .bind (Both.op hT .pop) fun a b h => ?_
  subst h
  cases a with
  | none => exact .fail
  | some h => exact .pure (ents _)

/-- A position and something else, further on. -/
def fst (w : Nat) (a b : Nat × α) : Prop := b = (a.1 + w, a.2)

syntax "taken'" : tactic
macro_rules
  | `(tactic| taken') => `(tactic| (
      refine .bind (Both.pop (by assumption)) ?_
      rintro ⟨wr, at_⟩ e' ⟨he, _, _⟩
      subst he
      cases wr with
      | Token t => cases t <;> first | exact .panic | exact .pure rfl
      | Deferred z => first | exact .panic | exact .pure rfl))

theorem consumeStreamStart (hT : Tied V w l S d d') : Both V S (fst w) (Parser.consumeStreamStart d) (Parser.consumeStreamStart d') := by
  taken'
theorem consumeStreamEnd (hT : Tied V w l S d d') : Both V S (fun a b => b = a + w) (Parser.consumeStreamEnd d) (Parser.consumeStreamEnd d') := by
  taken'
theorem consumeVersion (hT : Tied V w l S d d') : BothP V P S (fst w) (Parser.consumeVersion d) (Parser.consumeVersion d') := by
  taken'
theorem consumeTagDirective (hT : Tied V w l S d d') : BothP V P S (fst w) (Parser.consumeTagDirective d) (Parser.consumeTagDirective d') := by
  taken'
theorem consumeAlias (hT : Tied V w l S d d') : Both V S (fst w) (Parser.consumeAlias d) (Parser.consumeAlias d') := by
  taken'
theorem consumeAnchor (hT : Tied V w l S d d') : Both V S (fst w) (Parser.consumeAnchor d) (Parser.consumeAnchor d') := by
  taken'
theorem consumeTag (hT : Tied V w l S d d') : Both V S (fst w) (Parser.consumeTag d) (Parser.consumeTag d') := by
  taken'
theorem consumeScalar (hT : Tied V w l S d d') :
    Both V S (fun a b => b = (a.1 + w, a.2.mv w l)) (Parser.consumeScalar d) (Parser.consumeScalar d') := by
  taken'

theorem scanDirectivesLoop (hT : Tied V w l S d d') : ∀ fuel stop seen dir,
    BothP V P S (fst w) (Parser.scanDirectivesLoop d fuel stop seen dir) (Parser.scanDirectivesLoop d' fuel (stop + w) seen dir) := by
  intro fuel
  induction fuel with
  | zero => intro _ _ _; exact .diverge
  | succ fuel ih =>
    intro stop seen dir
    refine .bind (Both.peek hT) ?_
    rintro e _ ⟨rfl, -, -⟩
    simp only [mv_marker]
    generalize e.marker = m
    cases m with
    | VersionDirective =>
      refine .ite (.bind (consumeVersion hT) ?_) .fail
      rintro ⟨_, _⟩ _ rfl
      exact ih _ _ _
    | TagDirective =>
      refine .bind (consumeTagDirective hT) ?_
      rintro ⟨_, _, _⟩ _ rfl
      exact .ite .fail (ih _ _ _)
    | _ => exact .pure rfl

theorem scanDocumentDirectives (hT : Tied V w l S d d') (fuel : Nat) :
    BothP V P S (fun a b => b = (a.1 + w, a.2.1 + w, a.2.2)) (Parser.scanDocumentDirectives d fuel) (Parser.scanDocumentDirectives d' fuel) := by
  refine .bind (Both.peek hT) ?_
  rintro e _ ⟨rfl, -, -⟩
  simp only [mv_readAt]
  refine .bind (scanDirectivesLoop hT _ _ _ _) ?_
  rintro ⟨_, _⟩ _ rfl
  exact .pure rfl

theorem fetchAnchor (hT : Tied V w l S d d') (start : Nat) : Both V S (fst w) (Parser.fetchAnchor d start) (Parser.fetchAnchor d' (start + w)) := by
  refine .bind (Both.peekMaybe hT) fun a b h => ?_
  subst h
  cases a with
  | none => exact .pure rfl
  | some e =>
    simp only [Option.map_some, mv_marker]
    refine .ite (.bind (consumeAnchor hT) ?_) (.pure rfl)
    rintro ⟨_, _⟩ _ rfl
    exact .pure rfl

theorem fetchTag (hT : Tied V w l S d d') (start : Nat) : Both V S (fst w) (Parser.fetchTag d start) (Parser.fetchTag d' (start + w)) := by
  refine .bind (Both.peekMaybe hT) fun a b h => ?_
  subst h
  cases a with
  | none => exact .pure rfl
  | some e =>
    simp only [Option.map_some, mv_marker]
    refine .ite (.bind (consumeTag hT) ?_) (.pure rfl)
    rintro ⟨_, _, _⟩ _ rfl
    exact .pure rfl

/-- An event further on. -/
abbrev Ev (w l : Nat) (e e' : Event) : Prop := e' = e.mv w l

/-- And the results of a call. -/
abbrev Me (w l : Nat) (e e' : Option Event) : Prop := e' = e.map (Event.mv w l)

theorem fetchSequenceEnd (hT : Tied V w l S d d') (start stop : Nat) :
    Both V S (Ev w l) (Parser.fetchSequenceEnd d start stop) (Parser.fetchSequenceEnd d' (start + w) (stop + w)) :=
  .bind Both.popState fun _ _ _ => .bind (Both.pop hT) fun _ _ _ => .pure rfl

theorem fetchMappingEnd (hT : Tied V w l S d d') (start stop : Nat) :
    Both V S (Ev w l) (Parser.fetchMappingEnd d start stop) (Parser.fetchMappingEnd d' (start + w) (stop + w)) :=
  .bind Both.popState fun _ _ _ => .bind (Both.pop hT) fun _ _ _ => .pure rfl

theorem nodeProperties (hT : Tied V w l S d d') (m : Marker) (start : Nat) :
    Both V S (fst w) (Parser.nodeProperties d m start) (Parser.nodeProperties d' m (start + w)) := by
  cases m with
  | Anchor =>
    refine .bind (fetchAnchor hT _) ?_
    rintro ⟨_, _⟩ _ rfl
    refine .bind (fetchTag hT _) ?_
    rintro ⟨_, _⟩ _ rfl
    exact .pure rfl
  | Tag =>
    refine .bind (fetchTag hT _) ?_
    rintro ⟨_, _⟩ _ rfl
    refine .bind (fetchAnchor hT _) ?_
    rintro ⟨_, _⟩ _ rfl
    exact .pure rfl
  | _ => exact .pure rfl

theorem nodeContent (hT : Tied V w l S d d') (block : Bool) (kind : NodeKind) (start : Nat) (anchor : Option Str)
    (tag : Option (Str × Str)) :
    Both V S (Ev w l) (Parser.nodeContent d block kind start anchor tag) (Parser.nodeContent d' block kind (start + w) anchor tag) := by
  refine .bind (Both.peek hT) fun e e' h => ?_
  simp only [h.marker, h.readAt]
  have hi : ∀ n : Node, Both V S (Ev w l)
      (if (anchor.isSome || tag.isSome) = true then (do
        PM.popState
        pure { start := start, stop := e.readAt, data := .Scalar n ScalarLike.empty } : PM σ Event)
      else SO.fail .MissingNode)
      (if (anchor.isSome || tag.isSome) = true then (do
        PM.popState
        pure { start := start + w, stop := e.readAt + w, data := .Scalar n ScalarLike.empty } : PM τ Event)
      else SO.fail .MissingNode) := fun n => .ite (.bind Both.popState fun _ _ _ => .pure rfl) .fail
  have hset : ∀ {st : State} {ev ev' : Event}, ev' = ev.mv w l → Both V S (Ev w l) (do PM.setTop st; pure ev : PM σ Event) (do PM.setTop st; pure ev' : PM τ Event) :=
    fun h => .bind (Both.setTop _) fun _ _ _ => .pure h
  generalize e.marker = m
  cases m with
  | FlowSequenceStart => exact hset rfl
  | FlowMappingStart => exact hset rfl
  | BlockSequenceStart => exact .ite (hset rfl) (hi _)
  | BlockMappingStart => exact .ite (hset rfl) (hi _)
  | Scalar =>
    refine .bind (consumeScalar hT) ?_
    rintro ⟨_, c⟩ _ rfl
    exact .bind Both.popState fun _ _ _ => .pure rfl
  | _ => exact hi _

theorem nodeEvent (hT : Tied V w l S d d') (block : Bool) (kind : NodeKind) :
    Both V S (Ev w l) (Parser.nodeEvent d block kind) (Parser.nodeEvent d' block kind) := by
  refine .bind (Both.peek hT) fun e e' h => ?_
  simp only [h.marker, h.readAt]
  refine .ite (.bind Both.popState fun _ _ _ => .bind (consumeAlias hT) ?_) (.bind (nodeProperties hT _ _) ?_)
  · rintro ⟨_, _⟩ _ rfl
    exact .pure rfl
  · rintro ⟨_, _, _⟩ _ rfl
    exact nodeContent hT _ _ _ _ _

theorem validate_mv (tags : TagMap) (e : Event) : (∃ f, Parser.validateEventTag tags e = .ok f ∧ Parser.validateEventTag tags (e.mv w l) = .ok (f.mv w l)) ∨
    ∃ x, Parser.validateEventTag tags e = .err x ∧ Parser.validateEventTag tags (e.mv w l) = .err x := by
  have hv : ∀ (t : Option (Str × Str)) (b : Bool), (∃ t', Parser.validateTag tags t b = .ok t') ∨ ∃ x, Parser.validateTag tags t b = .err x := by
    intro t b
    unfold Parser.validateTag
    split
    · exact .inl ⟨_, rfl⟩
    · dsimp only
      repeat' split
      all_goals first | exact .inl ⟨_, rfl⟩ | exact .inr ⟨_, rfl⟩
  obtain ⟨a, b, data⟩ := e
  cases data <;> simp only [Event.mv, EventData.mv, Parser.validateEventTag]
  case Scalar n c =>
    rcases hv n.tag true with ⟨t, h⟩ | ⟨x, h⟩ <;> rw [h]
    · exact .inl ⟨_, rfl, rfl⟩
    · exact .inr ⟨_, rfl, rfl⟩
  case MappingStart n =>
    rcases hv n.tag false with ⟨t, h⟩ | ⟨x, h⟩ <;> rw [h]
    · exact .inl ⟨_, rfl, rfl⟩
    · exact .inr ⟨_, rfl, rfl⟩
  case SequenceStart n =>
    rcases hv n.tag false with ⟨t, h⟩ | ⟨x, h⟩ <;> rw [h]
    · exact .inl ⟨_, rfl, rfl⟩
    · exact .inr ⟨_, rfl, rfl⟩
  all_goals exact .inl ⟨_, rfl, rfl⟩

theorem node (hT : Tied V w l S d d') (block : Bool) (kind : NodeKind) :
    Both V S (Me w l) (Parser.node d block kind) (Parser.node d' block kind) := by
  refine .bind (nodeEvent hT _ _) fun e e' h => ?_
  subst h
  refine Rel.get fun s t hs => ?_
  rw [← hs.1]
  intro a b hab
  show Pair _ _ _ (SO.bind (SO.lift (Parser.validateEventTag s.parser.directives.tags e)) (fun ev => Pure.pure (some ev)) a)
    (SO.bind (SO.lift (Parser.validateEventTag s.parser.directives.tags (e.mv w l))) (fun ev => Pure.pure (some ev)) b)
  rcases validate_mv (w := w) (l := l) s.parser.directives.tags e with ⟨f, h2, h3⟩ | ⟨x, h2, h3⟩ <;> rw [h2, h3]
  · exact .ok rfl hab
  · exact .err (.inr hab)

theorem streamStart (hT : Tied V w l S d d') : Both V S (Me w l) (Parser.streamStart d) (Parser.streamStart d') := by
  refine .bind (Both.peek hT) fun e e' h => ?_
  simp only [h.marker]
  refine .ite (.bind (consumeStreamStart hT) ?_) .fail
  rintro ⟨_, _⟩ _ rfl
  exact .bind (Both.setTop _) fun _ _ _ => .pure rfl

theorem streamEnd (hT : Tied V w l S d d') : Both V S (Me w l) (Parser.streamEnd d) (Parser.streamEnd d') := by
  refine Rel.get fun s t hs => ?_
  rw [hs.1]
  refine .ite (.pure rfl) (.bind (consumeStreamEnd hT) ?_)
  rintro _ _ rfl
  exact .bind (Rel.modify fun _ _ h => ⟨by dsimp only; rw [h.1], h.2⟩) fun _ _ _ => .pure rfl

theorem skipDocumentEnds (hT : Tied V w l S d d') : ∀ fuel, Both V S Eq (Parser.skipDocumentEnds d fuel) (Parser.skipDocumentEnds d' fuel) := by
  intro fuel
  induction fuel with
  | zero => exact .diverge
  | succ fuel ih =>
    refine .bind (Both.peek hT) fun e e' h => ?_
    simp only [h.marker]
    exact .ite (.bind (Both.pop hT) fun _ _ _ => ih) (.pure rfl)

theorem documentMarker (hT : Tied V w l S d d') : BothP V P S (fun a b => b = a + w) (Parser.documentMarker d) (Parser.documentMarker d') := by
  refine .bind (Both.peek hT) fun e e' h => ?_
  simp only [h.marker]
  exact .ite (.bind (Both.pop hT) fun _ _ h => .pure h.readAt) .fail

theorem documentStart (hT : Tied V w l S d d') (fuel : Nat) (implicit first : Bool) :
    Both V S (Me w l) (Parser.documentStart d fuel implicit first) (Parser.documentStart d' fuel implicit first) := by
  refine .bind (Q := Eq) (.ite (.pure rfl) (skipDocumentEnds hT _)) fun _ _ _ => .bind (Both.peek hT) fun e e' h => ?_
  simp only [h.marker]
  refine .ite ?_ (.ite ?_ (.ite ?_ ?_))
  · refine .bind (scanDocumentDirectives hT _) ?_
    rintro ⟨_, _, _⟩ _ rfl
    exact .bind (Both.pushState _) fun _ _ _ => .bind (Both.setTop _) fun _ _ _ => .bind (Both.setDirectives _) fun _ _ _ => .pure rfl
  · refine .bind (scanDocumentDirectives hT _) ?_
    rintro ⟨_, _, _⟩ _ rfl
    refine .bind (documentMarker hT) ?_
    rintro _ _ rfl
    exact .bind (Both.pushState _) fun _ _ _ => .bind (Both.setTop _) fun _ _ _ => .bind (Both.setDirectives _) fun _ _ _ => .pure rfl
  · refine .bind (scanDocumentDirectives hT _) ?_
    rintro ⟨_, _, _⟩ _ rfl
    exact .bind (Both.setTop _) fun _ _ _ => .bind (Both.setDirectives _) fun _ _ _ => .pure rfl
  · exact .bind (Both.setTop _) fun _ _ _ => .pure rfl

theorem documentEnd (hT : Tied V w l S d d') : Both V S (Me w l) (Parser.documentEnd d) (Parser.documentEnd d') := by
  refine .bind (Both.peek hT) fun e e' h => ?_
  refine .bind (Q := Eq) ?_ ?_
  · unfold Parser.implicitEnd
    simp only [h.marker]
    exact .ite (.bind (Both.pop hT) fun _ _ _ => .pure rfl) (.pure rfl)
  · rintro _ _ rfl
    simp only [h.readAt]
    exact .bind (Both.setTop _) fun _ _ _ => .pure rfl

theorem explicitDocumentContent (hT : Tied V w l S d d') :
    Both V S (Me w l) (Parser.explicitDocumentContent d) (Parser.explicitDocumentContent d') := by
  refine .bind (Both.peek hT) fun e e' h => ?_
  simp only [h.marker]
  exact .ite (.bind Both.popState fun _ _ _ => .pure rfl) (node hT _ _)

theorem popFirst (hT : Tied V w l S d d') (first : Bool) : Both V S Eq (Parser.popFirst d first) (Parser.popFirst d' first) :=
  .ite (.bind (Both.pop hT) fun _ _ _ => .pure rfl) (.pure rfl)

theorem peekPopFirst (hT : Tied V w l S d d') (first : Bool) : Both V S Eq (Parser.peekPopFirst d first) (Parser.peekPopFirst d' first) :=
  .ite (.bind (Both.peek hT) fun _ _ _ => .bind (Both.pop hT) fun _ _ _ => .pure rfl) (.pure rfl)

theorem setPure {st : State} {ev ev' : Event} (h : ev' = ev.mv w l) : Both V S (Me w l) (do PM.setTop st; pure (some ev) : PM σ (Option Event))
    (do PM.setTop st; pure (some ev') : PM τ (Option Event)) :=
  .bind (Both.setTop _) fun _ _ _ => .pure (by rw [h]; rfl)

theorem pushNode (hT : Tied V w l S d d') (st : State) (block : Bool) (kind : NodeKind) :
    Both V S (Me w l) (do PM.pushState st; Parser.node d block kind) (do PM.pushState st; Parser.node d' block kind) :=
  .bind (Both.pushState _) fun _ _ _ => node hT _ _

theorem blockSequenceEntry (hT : Tied V w l S d d') (first : Bool) :
    Both V S (Me w l) (Parser.blockSequenceEntry d first) (Parser.blockSequenceEntry d' first) := by
  refine .bind (popFirst hT _) fun _ _ _ => .bind (Both.peek hT) fun e e' h => ?_
  simp only [h.marker, h.readAt]
  generalize e.marker = m
  cases m with
  | BlockEntry =>
    refine .bind (Both.pop hT) fun _ _ _ => .bind (Both.peek hT) fun _ _ h => ?_
    simp only [h.marker]
    exact .ite (setPure rfl) (pushNode hT _ _ _)
  | BlockEnd => exact .bind (Both.pop hT) fun _ _ _ => .bind Both.popState fun _ _ _ => .pure rfl
  | _ => exact .fail

theorem blockMappingKey (hT : Tied V w l S d d') (first : Bool) :
    Both V S (Me w l) (Parser.blockMappingKey d first) (Parser.blockMappingKey d' first) := by
  refine .bind (peekPopFirst hT _) fun _ _ _ => .bind (Both.peek hT) fun e e' h => ?_
  simp only [h.marker, h.readAt]
  generalize e.marker = m
  cases m with
  | Key =>
    refine .bind (Both.pop hT) fun _ _ _ => .bind (Both.peek hT) fun _ _ h => ?_
    simp only [h.marker, h.readAt]
    exact .ite (pushNode hT _ _ _) (setPure rfl)
  | BlockEnd => exact .bind (Both.pop hT) fun _ _ _ => .bind Both.popState fun _ _ _ => .pure rfl
  | _ => exact .fail

theorem blockMappingValue (hT : Tied V w l S d d') :
    Both V S (Me w l) (Parser.blockMappingValue d) (Parser.blockMappingValue d') := by
  refine .bind (Both.peek hT) fun e e' h => ?_
  simp only [h.marker, h.readAt]
  generalize e.marker = m
  cases m with
  | Value =>
    refine .bind (Both.pop hT) fun _ _ _ => .bind (Both.peek hT) fun _ _ h => ?_
    simp only [h.marker, h.readAt]
    exact .ite (pushNode hT _ _ _) (setPure rfl)
  | _ => exact setPure rfl

theorem popFlowEntry (hT : Tied V w l S d d') (first : Bool) {e e' : TokenEntry} (h : Ents w l e e') (err : ParseError) :
    Both V S Eq (Parser.popFlowEntry d first e err) (Parser.popFlowEntry d' first e' err) := by
  unfold Parser.popFlowEntry
  simp only [h.marker]
  exact .ite (.pure rfl) (.ite (.bind (Both.pop hT) fun _ _ _ => .pure rfl) .fail)

theorem someEvent {x : PM σ Event} {y : PM τ Event} (h : Both V S (Ev w l) x y) :
    Both V S (Me w l) (do let ev ← x; pure (some ev)) (do let ev ← y; pure (some ev)) :=
  .bind h fun _ _ h => .pure (by rw [h]; rfl)

theorem flowSequenceEntry (hT : Tied V w l S d d') (first : Bool) :
    Both V S (Me w l) (Parser.flowSequenceEntry d first) (Parser.flowSequenceEntry d' first) := by
  refine .bind (popFirst hT _) fun _ _ _ => .bind (Both.peek hT) fun e e' h => ?_
  simp only [h.marker, h.readAt]
  refine .ite (.bind (popFlowEntry hT _ h _) fun _ _ _ => .bind (Both.peek hT) fun _ _ h => ?_) (someEvent (fetchSequenceEnd hT _ _))
  simp only [h.marker, h.readAt]
  exact .ite (.bind (Both.pop hT) fun _ _ _ => setPure rfl) (.ite (pushNode hT _ _ _) (someEvent (fetchSequenceEnd hT _ _)))

theorem flowSequenceEntryMappingKey (hT : Tied V w l S d d') :
    Both V S (Me w l) (Parser.flowSequenceEntryMappingKey d) (Parser.flowSequenceEntryMappingKey d') := by
  refine .bind (Both.peek hT) fun e e' h => ?_
  simp only [h.marker, h.readAt]
  exact .ite (pushNode hT _ _ _) (setPure rfl)

theorem flowPairHasValue (hT : Tied V w l S d d') {e e' : TokenEntry} (h : Ents w l e e') :
    Both V S Eq (Parser.flowPairHasValue d e) (Parser.flowPairHasValue d' e') := by
  unfold Parser.flowPairHasValue
  simp only [h.marker]
  refine .ite (.bind (Both.pop hT) fun _ _ _ => .bind (Both.peek hT) fun _ _ h => ?_) (.pure rfl)
  simp only [h.marker]
  exact .pure rfl

theorem flowSequenceEntryMappingValue (hT : Tied V w l S d d') :
    Both V S (Me w l) (Parser.flowSequenceEntryMappingValue d) (Parser.flowSequenceEntryMappingValue d') := by
  refine .bind (Both.peek hT) fun e e' h => .bind (flowPairHasValue hT h) ?_
  rintro _ _ rfl
  simp only [h.readAt]
  exact .ite (pushNode hT _ _ _) (setPure rfl)

theorem flowSequenceEntryMappingEnd (hT : Tied V w l S d d') :
    Both V S (Me w l) (Parser.flowSequenceEntryMappingEnd d) (Parser.flowSequenceEntryMappingEnd d') := by
  refine .bind (Both.peek hT) fun e e' h => ?_
  simp only [h.readAt]
  exact setPure rfl

theorem flowMappingKey (hT : Tied V w l S d d') (first : Bool) :
    Both V S (Me w l) (Parser.flowMappingKey d first) (Parser.flowMappingKey d' first) := by
  refine .bind (popFirst hT _) fun _ _ _ => .bind (Both.peek hT) fun e e' h => ?_
  simp only [h.marker, h.readAt]
  refine .ite (.bind (popFlowEntry hT _ h _) fun _ _ _ => .bind (Both.peek hT) fun _ _ h => ?_) (someEvent (fetchMappingEnd hT _ _))
  simp only [h.marker, h.readAt]
  refine .ite (.bind (Both.pop hT) fun _ _ _ => .bind (Both.peek hT) fun _ _ h => ?_)
    (.ite (pushNode hT _ _ _) (someEvent (fetchMappingEnd hT _ _)))
  simp only [h.marker, h.readAt]
  exact .ite (pushNode hT _ _ _) (setPure rfl)

theorem flowMappingValue (hT : Tied V w l S d d') (empty : Bool) :
    Both V S (Me w l) (Parser.flowMappingValue d empty) (Parser.flowMappingValue d' empty) := by
  refine .bind (Both.peek hT) fun e e' h => ?_
  simp only [h.marker, h.readAt]
  refine .ite (setPure rfl) (.ite (.bind (Both.pop hT) fun _ _ _ => .bind (Both.peek hT) fun _ _ h => ?_) (setPure rfl))
  simp only [h.marker, h.readAt]
  exact .ite (pushNode hT _ _ _) (setPure rfl)

theorem stateTransition (hT : Tied V w l S d d') (fuel : Nat) :
    Both V S (Me w l) (Parser.stateTransition d fuel) (Parser.stateTransition d' fuel) := by
  refine Rel.get fun s t hs => ?_
  rw [← hs.1]
  generalize s.parser.state.top = st
  cases st with
  | StreamStart => exact streamStart hT
  | DocumentStart i f => exact documentStart hT _ _ _
  | DocumentContent => exact explicitDocumentContent hT
  | DocumentEnd => exact documentEnd hT
  | BlockNode => exact node hT _ _
  | FlowNode => exact node hT _ _
  | BlockSequenceEntry f => exact blockSequenceEntry hT _
  | BlockMappingKey f => exact blockMappingKey hT _
  | BlockMappingValue => exact blockMappingValue hT
  | FlowSequenceEntry f => exact flowSequenceEntry hT _
  | FlowSequenceMappingKey => exact flowSequenceEntryMappingKey hT
  | FlowSequenceMappingValue => exact flowSequenceEntryMappingValue hT
  | FlowSequenceMappingEnd => exact flowSequenceEntryMappingEnd hT
  | FlowMappingKey f => exact flowMappingKey hT _
  | FlowMappingValue f => exact flowMappingValue hT _
  | StreamEnd => exact streamEnd hT

theorem nextEventLoop (hT : Tied V w l S d d') (fuel : Nat) : ∀ n,
    Both V S (Me w l) (Parser.nextEventLoop d fuel n) (Parser.nextEventLoop d' fuel n) := by
  intro n
  induction n with
  | zero => exact .diverge
  | succ n ih =>
    refine Rel.get fun s t hs => ?_
    rw [hs.1]
    refine .ite (.pure rfl) (.bind (stateTransition hT _) fun a b h => ?_)
    subst h
    cases a with
    | none => exact ih
    | some h => exact .pure rfl

/-- A call on each side. -/
theorem nextEvent (hT : Tied V w l S d d') (fuel : Nat) :
    Both V S (Me w l) (Parser.nextEvent d fuel) (Parser.nextEvent d' fuel) := nextEventLoop hT _ _

end Moved

end Yary
