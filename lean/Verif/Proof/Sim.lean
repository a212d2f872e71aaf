import Verif.Spec.Events
import Verif.Proof.Fuel

/-!
# Two parsers side by side

Two parsers on two sources which report related tokens return related events.
-/

namespace Yary

open Spec

namespace Sim

/-- The content of a scalar token. -/
def likeOf : MaybeToken → Option ScalarLike
  | .Token (.Scalar data style) => some (.Eager { data, style })
  | .Token _ => none
  | .Deferred l => some (.Lazy l)

/-- The same token, or two scalars with related content. -/
inductive Wraps (C : ScalarLike → ScalarLike → Prop) : MaybeToken → MaybeToken → Prop where
  | same (w : MaybeToken) : Wraps C w w
  | scalar {w w' : MaybeToken} {c c' : ScalarLike} (h : likeOf w = some c) (h' : likeOf w' = some c') (hc : C c c') : Wraps C w w'

/-- Tokens at the same position with related content. -/
structure Entries (C : ScalarLike → ScalarLike → Prop) (e e' : TokenEntry) : Prop where
  readAt : e'.readAt = e.readAt
  wrap : Wraps C e.wrap e'.wrap

/-- Related tokens, or the end on both sides. -/
inductive Opts (R : TokenEntry → TokenEntry → Prop) : Option TokenEntry → Option TokenEntry → Prop where
  | none : Opts R none none
  | some {e e' : TokenEntry} (h : R e e') : Opts R (some e) (some e')

theorem marker_of_like {w : MaybeToken} {c : ScalarLike} (h : likeOf w = some c) : w.marker = .Scalar := by
  cases w with
  | Token t => cases t <;> simp [likeOf] at h <;> rfl
  | Deferred l => rfl

theorem Entries.marker {C : ScalarLike → ScalarLike → Prop} {e e' : TokenEntry} (h : Entries C e e') : e'.marker = e.marker := by
  obtain ⟨-, h⟩ := h
  unfold TokenEntry.marker
  generalize e.wrap = w at h ⊢
  generalize e'.wrap = w' at h ⊢
  cases h with
  | same => rfl
  | scalar h h' => rw [marker_of_like h, marker_of_like h']

/-- What becomes of a failed call of the reader. -/
def raise {α β : Type} : Out ReaderError α → Out ParseError β
  | .ok _ => .diverge
  | .err e => .err (.ofReader e)
  | .panic => .panic
  | .diverge => .diverge

variable {σ τ : Type} {α β γ δ : Type}

/-- Two calls report related tokens, or fail in the same way, or the first one fails with a failure in `F`. -/
def Step (C : ScalarLike → ScalarLike → Prop) (F : Out ReaderError (Option TokenEntry) → Prop)
    (S : PeekReader σ → PeekReader τ → Prop) (x : Out ReaderError (Option TokenEntry) × PeekReader σ)
    (y : Out ReaderError (Option TokenEntry) × PeekReader τ) : Prop :=
  (∃ t t', x.1 = .ok t ∧ y.1 = .ok t' ∧ Opts (Entries C) t t' ∧ S x.2 y.2) ∨
  ((∀ t, x.1 ≠ .ok t) ∧ (x.1 = y.1 ∨ F x.1))

/-- Readers in related states report related tokens. -/
def Tied (C : ScalarLike → ScalarLike → Prop) (F : Out ReaderError (Option TokenEntry) → Prop)
    (S : PeekReader σ → PeekReader τ → Prop) (d : Drive σ) (d' : Drive τ) : Prop :=
  ∀ p p', S p p' → ∀ op : ROp, Step C F S (op.run d p) (op.run d' p')

/-- What two handlers return. -/
inductive Res (F : Out ReaderError (Option TokenEntry) → Prop) (S : PeekReader σ → PeekReader τ → Prop) (Q : α → β → Prop) :
    Out ParseError α × PS σ → Out ParseError β × PS τ → Prop where
  | ok {a : α} {b : β} {ps : Parser} {p : PeekReader σ} {p' : PeekReader τ} (hq : Q a b) (hs : S p p') : Res F S Q (.ok a, ⟨ps, p⟩) (.ok b, ⟨ps, p'⟩)
  | err {e : ParseError} {ps : Parser} {p : PeekReader σ} {p' : PeekReader τ} (hs : S p p') : Res F S Q (.err e, ⟨ps, p⟩) (.err e, ⟨ps, p'⟩)
  | panic {s : PS σ} {s' : PS τ} : Res F S Q (.panic, s) (.panic, s')
  | diverge {s : PS σ} {s' : PS τ} : Res F S Q (.diverge, s) (.diverge, s')
  | same {o : Out ReaderError (Option TokenEntry)} {s : PS σ} {s' : PS τ} (ho : ∀ t, o ≠ .ok t) : Res F S Q (raise o, s) (raise o, s')
  | fails {o : Out ReaderError (Option TokenEntry)} {s : PS σ} {r : Out ParseError β × PS τ} (ho : ∀ t, o ≠ .ok t) (hf : F o) : Res F S Q (raise o, s) r

/-- Two handlers which return related results in related states. -/
def Both (F : Out ReaderError (Option TokenEntry) → Prop) (S : PeekReader σ → PeekReader τ → Prop) (Q : α → β → Prop)
    (x : PM σ α) (y : PM τ β) : Prop :=
  ∀ ps p p', S p p' → Res F S Q (x ⟨ps, p⟩) (y ⟨ps, p'⟩)

variable {C : ScalarLike → ScalarLike → Prop} {F : Out ReaderError (Option TokenEntry) → Prop}
  {S : PeekReader σ → PeekReader τ → Prop} {d : Drive σ} {d' : Drive τ} {Q : α → β → Prop} {Q' : γ → δ → Prop}

theorem Both.pure {a : α} {b : β} (h : Q a b) : Both F S Q (pure a) (pure b) := fun _ _ _ hs => .ok h hs

theorem Both.fail {e : ParseError} : Both F S Q (SO.fail e) (SO.fail e) := fun _ _ _ hs => .err hs

theorem Both.panic : Both F S Q SO.panic SO.panic := fun _ _ _ _ => .panic

theorem Both.diverge : Both F S Q SO.diverge SO.diverge := fun _ _ _ _ => .diverge

theorem Both.bind {x : PM σ α} {y : PM τ β} {f : α → PM σ γ} {g : β → PM τ δ} (h : Both F S Q x y)
    (h' : ∀ a b, Q a b → Both F S Q' (f a) (g b)) : Both F S Q' (x >>= f) (y >>= g) := by
  intro ps p p' hs
  have h1 := h ps p p' hs
  show Res F S Q' (SO.bind x f ⟨ps, p⟩) (SO.bind y g ⟨ps, p'⟩)
  unfold SO.bind
  generalize x ⟨ps, p⟩ = r at h1 ⊢
  generalize y ⟨ps, p'⟩ = r' at h1 ⊢
  cases h1 with
  | ok hq hs => exact h' _ _ hq _ _ _ hs
  | err hs => exact .err hs
  | panic => exact .panic
  | diverge => exact .diverge
  | @same o s s' ho =>
    cases o with
    | ok t => exact absurd rfl (ho t)
    | err e => exact .same (o := .err e) (fun _ h => by cases h)
    | panic => exact .panic
    | diverge => exact .diverge
  | @fails o s r ho hf =>
    cases o with
    | ok t => exact absurd rfl (ho t)
    | err e => exact .fails (o := .err e) (fun _ h => by cases h) hf
    | panic => exact .fails (o := .panic) (fun _ h => by cases h) hf
    | diverge => exact .fails (o := .diverge) (fun _ h => by cases h) hf

theorem Both.ite {c : Prop} [Decidable c] {x x' : PM σ α} {y y' : PM τ β} (h : Both F S Q x y) (h' : Both F S Q x' y') :
    Both F S Q (if c then x else x') (if c then y else y') := by
  split <;> assumption

theorem Both.mono {Q' : α → β → Prop} {x : PM σ α} {y : PM τ β} (h : Both F S Q x y) (hq : ∀ a b, Q a b → Q' a b) : Both F S Q' x y := by
  intro ps p p' hs
  have h1 := h ps p p' hs
  generalize x ⟨ps, p⟩ = r at h1 ⊢
  generalize y ⟨ps, p'⟩ = r' at h1 ⊢
  cases h1 with
  | ok h hs => exact .ok (hq _ _ h) hs
  | err hs => exact .err hs
  | panic => exact .panic
  | diverge => exact .diverge
  | same ho => exact .same ho
  | fails ho hf => exact .fails ho hf

theorem Both.onState (f : StateMachine → StateMachine) : Both F S Eq (PM.onState f) (PM.onState f) := fun _ _ _ hs => .ok rfl hs

theorem Both.setTop (st : State) : Both F S Eq (PM.setTop st) (PM.setTop st) := fun _ _ _ hs => .ok rfl hs
theorem Both.pushState (st : State) : Both F S Eq (PM.pushState st) (PM.pushState st) := fun _ _ _ hs => .ok rfl hs
theorem Both.popState : Both F S Eq PM.popState PM.popState := fun _ _ _ hs => .ok rfl hs
theorem Both.setDirectives (dir : Directives) : Both F S Eq (Parser.setDirectives dir) (Parser.setDirectives dir) := fun _ _ _ hs => .ok rfl hs

theorem Both.op (hT : Tied C F S d d') (op : ROp) :
    Both F S (Opts (Entries C)) (PM.onTokens (fun p => op.run d p)) (PM.onTokens (fun p => op.run d' p)) := by
  intro ps p p' hs
  have h := hT p p' hs op
  unfold PM.onTokens
  dsimp only
  generalize op.run d p = x at h ⊢
  generalize op.run d' p' = y at h ⊢
  obtain ⟨x, q⟩ := x
  obtain ⟨y, q'⟩ := y
  rcases h with ⟨t, t', h1, h2, h3, h4⟩ | ⟨h1, h2⟩
  · dsimp only at h1 h2
    subst h1; subst h2
    exact .ok h3 h4
  · dsimp only at h1 h2
    rcases h2 with h2 | h2
    · subst h2
      cases x with
      | ok t => exact absurd rfl (h1 t)
      | err e => exact .same (o := .err e) h1
      | panic => exact .panic
      | diverge => exact .diverge
    · cases x with
      | ok t => exact absurd rfl (h1 t)
      | err e => exact .fails (o := .err e) h1 h2
      | panic => exact .fails (o := .panic) h1 h2
      | diverge => exact .fails (o := .diverge) h1 h2

theorem Both.peekMaybe (hT : Tied C F S d d') : Both F S (Opts (Entries C)) (PM.peekMaybe d) (PM.peekMaybe d') := Both.op hT .peek

theorem Both.peek (hT : Tied C F S d d') : Both F S (Entries C) (PM.peek d) (PM.peek d') := by
  refine .bind (Both.peekMaybe hT) fun a b h => ?_
  cases h with
  | none => exact .fail
  | some h => exact .pure h

theorem Both.pop (hT : Tied C F S d d') : Both F S (Entries C) (PM.pop d) (PM.pop d') := by
  refine .bind (Both.op hT .pop) fun a b h => ?_
  cases h with
  | none => exact .fail
  | some h => exact .pure h

/-- A token that is not a scalar is taken apart. -/
theorem Both.taking (hT : Tied C F S d d') {f : TokenEntry → PM σ α} {g : TokenEntry → PM τ α}
    (hf : ∀ e, (∀ c, likeOf e.wrap ≠ some c) → ∀ e', e'.readAt = e.readAt → e'.wrap = e.wrap → Both F S Eq (f e) (g e'))
    (hp : ∀ e e' c c', likeOf e.wrap = some c → likeOf e'.wrap = some c' → f e = SO.panic ∧ g e' = SO.panic) :
    Both F S Eq (PM.pop d >>= f) (PM.pop d' >>= g) := by
  refine .bind (Both.pop hT) fun e e' h => ?_
  obtain ⟨h1, h2⟩ := h
  by_cases hl : ∃ c, likeOf e.wrap = some c
  · obtain ⟨c, hc⟩ := hl
    have : ∃ c', likeOf e'.wrap = some c' := by
      generalize e.wrap = w at h2 hc
      generalize e'.wrap = w' at h2
      cases h2 with
      | same => exact ⟨c, hc⟩
      | scalar _ h => exact ⟨_, h⟩
    obtain ⟨c', hc'⟩ := this
    obtain ⟨h3, h4⟩ := hp e e' c c' hc hc'
    rw [h3, h4]
    exact .panic
  · refine hf e (fun c hc => hl ⟨c, hc⟩) e' h1 ?_
    generalize e.wrap = w at h2 hl
    generalize e'.wrap = w' at h2
    cases h2 with
    | same => rfl
    | scalar h => exact absurd ⟨_, h⟩ hl

syntax "taken" : tactic
macro_rules
  | `(tactic| taken) => `(tactic| (
      refine Both.taking (by assumption) ?_ ?_
      · rintro ⟨w, at_⟩ - ⟨w', at'⟩ h1 h2
        dsimp only at h1 h2
        subst h1; subst h2
        first
        | (split <;> first | exact .panic | exact .pure rfl)
        | skip
      · rintro ⟨w, at_⟩ ⟨w', at'⟩ c c' h1 h2
        cases w with
        | Deferred l =>
          cases w' with
          | Deferred l' => exact ⟨rfl, rfl⟩
          | Token t' => cases t' <;> first | exact ⟨rfl, rfl⟩ | (cases h2; done)
        | Token t =>
          cases w' with
          | Deferred l' => cases t <;> first | exact ⟨rfl, rfl⟩ | (cases h1; done)
          | Token t' => cases t <;> cases t' <;> first | exact ⟨rfl, rfl⟩ | (cases h1; done) | (cases h2; done)))

theorem consumeStreamStart (hT : Tied C F S d d') : Both F S Eq (Parser.consumeStreamStart d) (Parser.consumeStreamStart d') := by
  taken
theorem consumeStreamEnd (hT : Tied C F S d d') : Both F S Eq (Parser.consumeStreamEnd d) (Parser.consumeStreamEnd d') := by
  taken
theorem consumeVersion (hT : Tied C F S d d') : Both F S Eq (Parser.consumeVersion d) (Parser.consumeVersion d') := by
  taken
theorem consumeTagDirective (hT : Tied C F S d d') : Both F S Eq (Parser.consumeTagDirective d) (Parser.consumeTagDirective d') := by
  taken
theorem consumeAlias (hT : Tied C F S d d') : Both F S Eq (Parser.consumeAlias d) (Parser.consumeAlias d') := by
  taken
theorem consumeAnchor (hT : Tied C F S d d') : Both F S Eq (Parser.consumeAnchor d) (Parser.consumeAnchor d') := by
  taken
theorem consumeTag (hT : Tied C F S d d') : Both F S Eq (Parser.consumeTag d) (Parser.consumeTag d') := by
  taken

theorem consumeScalar (hC : ∀ c, C c c) (hT : Tied C F S d d') :
    Both F S (fun a b => b.1 = a.1 ∧ C a.2 b.2) (Parser.consumeScalar d) (Parser.consumeScalar d') := by
  refine .bind (Both.pop hT) ?_
  rintro ⟨w, at_⟩ ⟨w', at'⟩ ⟨h1, h2⟩
  dsimp only at h1 h2 ⊢
  subst h1
  cases h2 with
  | same =>
    split
    · exact .pure ⟨rfl, hC _⟩
    · exact .panic
    · exact .pure ⟨rfl, hC _⟩
  | scalar h h' hc =>
    have : ∀ {w : MaybeToken} {c : ScalarLike}, likeOf w = some c →
        (∃ data style, w = .Token (.Scalar data style) ∧ c = .Eager ⟨data, style⟩) ∨ ∃ l, w = .Deferred l ∧ c = .Lazy l := by
      intro w c h
      cases w with
      | Deferred l => exact .inr ⟨l, rfl, by simpa [likeOf] using h.symm⟩
      | Token t =>
        cases t <;> first | (cases h; done) | exact .inl ⟨_, _, rfl, by simpa [likeOf] using h.symm⟩
    rcases this h with ⟨_, _, rfl, rfl⟩ | ⟨_, rfl, rfl⟩ <;> rcases this h' with ⟨_, _, rfl, rfl⟩ | ⟨_, rfl, rfl⟩ <;> exact .pure ⟨rfl, hc⟩

theorem scanDirectivesLoop (hT : Tied C F S d d') : ∀ fuel stop seen dir,
    Both F S Eq (Parser.scanDirectivesLoop d fuel stop seen dir) (Parser.scanDirectivesLoop d' fuel stop seen dir) := by
  intro fuel
  induction fuel with
  | zero => intro _ _ _; exact .diverge
  | succ fuel ih =>
    intro stop seen dir
    refine .bind (Both.peek hT) fun e e' h => ?_
    simp only [h.marker]
    generalize e.marker = m
    cases m with
    | VersionDirective =>
      refine .ite (.bind (consumeVersion hT) ?_) .fail
      rintro ⟨_, _⟩ _ rfl
      exact ih _ _ _
    | TagDirective =>
      refine .bind (consumeTagDirective hT) ?_
      rintro ⟨_, _, _⟩ _ rfl
      exact .ite .fail (ih _ _ _)
    | _ => exact .pure rfl

theorem scanDocumentDirectives (hT : Tied C F S d d') (fuel : Nat) :
    Both F S Eq (Parser.scanDocumentDirectives d fuel) (Parser.scanDocumentDirectives d' fuel) := by
  refine .bind (Both.peek hT) fun e e' h => ?_
  simp only [h.readAt]
  refine .bind (scanDirectivesLoop hT _ _ _ _) ?_
  rintro ⟨_, _⟩ _ rfl
  exact .pure rfl

theorem fetchAnchor (hT : Tied C F S d d') (start : Nat) : Both F S Eq (Parser.fetchAnchor d start) (Parser.fetchAnchor d' start) := by
  refine .bind (Both.peekMaybe hT) fun a b h => ?_
  cases h with
  | none => exact .pure rfl
  | some h =>
    simp only [h.marker]
    refine .ite (.bind (consumeAnchor hT) ?_) (.pure rfl)
    rintro ⟨_, _⟩ _ rfl
    exact .pure rfl

theorem fetchTag (hT : Tied C F S d d') (start : Nat) : Both F S Eq (Parser.fetchTag d start) (Parser.fetchTag d' start) := by
  refine .bind (Both.peekMaybe hT) fun a b h => ?_
  cases h with
  | none => exact .pure rfl
  | some h =>
    simp only [h.marker]
    refine .ite (.bind (consumeTag hT) ?_) (.pure rfl)
    rintro ⟨_, _, _⟩ _ rfl
    exact .pure rfl

theorem fetchSequenceEnd (hT : Tied C F S d d') (start stop : Nat) :
    Both F S (SameEvent C) (Parser.fetchSequenceEnd d start stop) (Parser.fetchSequenceEnd d' start stop) :=
  .bind .popState fun _ _ _ => .bind (Both.pop hT) fun _ _ _ => .pure (.same _)

theorem fetchMappingEnd (hT : Tied C F S d d') (start stop : Nat) :
    Both F S (SameEvent C) (Parser.fetchMappingEnd d start stop) (Parser.fetchMappingEnd d' start stop) :=
  .bind .popState fun _ _ _ => .bind (Both.pop hT) fun _ _ _ => .pure (.same _)

theorem nodeProperties (hT : Tied C F S d d') (m : Marker) (start : Nat) :
    Both F S Eq (Parser.nodeProperties d m start) (Parser.nodeProperties d' m start) := by
  cases m with
  | Anchor =>
    refine .bind (fetchAnchor hT _) ?_
    rintro ⟨_, _⟩ _ rfl
    refine .bind (fetchTag hT _) ?_
    rintro ⟨_, _⟩ _ rfl
    exact .pure rfl
  | Tag =>
    refine .bind (fetchTag hT _) ?_
    rintro ⟨_, _⟩ _ rfl
    refine .bind (fetchAnchor hT _) ?_
    rintro ⟨_, _⟩ _ rfl
    exact .pure rfl
  | _ => exact .pure rfl

theorem nodeContent (hC : ∀ c, C c c) (hT : Tied C F S d d') (block : Bool) (kind : NodeKind) (start : Nat) (anchor : Option Str)
    (tag : Option (Str × Str)) :
    Both F S (SameEvent C) (Parser.nodeContent d block kind start anchor tag) (Parser.nodeContent d' block kind start anchor tag) := by
  refine .bind (Both.peek hT) fun e e' h => ?_
  simp only [h.marker, h.readAt]
  have hi : ∀ n : Node, Both F S (SameEvent C)
      (if (anchor.isSome || tag.isSome) = true then (do
        PM.popState
        pure { start := start, stop := e.readAt, data := .Scalar n ScalarLike.empty } : PM σ Event)
      else SO.fail .MissingNode)
      (if (anchor.isSome || tag.isSome) = true then (do
        PM.popState
        pure { start := start, stop := e.readAt, data := .Scalar n ScalarLike.empty } : PM τ Event)
      else SO.fail .MissingNode) := fun n => .ite (.bind .popState fun _ _ _ => .pure (.same _)) .fail
  have hset : ∀ (st : State) (ev : Event), Both F S (SameEvent C) (do PM.setTop st; pure ev : PM σ Event) (do PM.setTop st; pure ev : PM τ Event) :=
    fun st ev => .bind (.setTop _) fun _ _ _ => .pure (.same _)
  generalize e.marker = m
  cases m with
  | FlowSequenceStart => exact hset _ _
  | FlowMappingStart => exact hset _ _
  | BlockSequenceStart => exact .ite (hset _ _) (hi _)
  | BlockMappingStart => exact .ite (hset _ _) (hi _)
  | Scalar =>
    refine .bind (consumeScalar hC hT) ?_
    rintro ⟨_, c⟩ ⟨_, c'⟩ ⟨rfl, hc⟩
    exact .bind .popState fun _ _ _ => .pure (.scalar hc)
  | _ => exact hi _

theorem nodeEvent (hC : ∀ c, C c c) (hT : Tied C F S d d') (block : Bool) (kind : NodeKind) :
    Both F S (SameEvent C) (Parser.nodeEvent d block kind) (Parser.nodeEvent d' block kind) := by
  refine .bind (Both.peek hT) fun e e' h => ?_
  simp only [h.marker, h.readAt]
  refine .ite (.bind .popState fun _ _ _ => .bind (consumeAlias hT) ?_) (.bind (nodeProperties hT _ _) ?_)
  · rintro ⟨_, _⟩ _ rfl
    exact .pure (.same _)
  · rintro ⟨_, _, _⟩ _ rfl
    exact nodeContent hC hT _ _ _ _ _

/-- The results of a call. -/
inductive MaybeSame (C : ScalarLike → ScalarLike → Prop) : Option Event → Option Event → Prop where
  | none : MaybeSame C none none
  | some {e e' : Event} (h : SameEvent C e e') : MaybeSame C (some e) (some e')

theorem some_same {e : Event} : MaybeSame C (some e) (some e) := .some (.same _)

theorem validate_same {tags : TagMap} {e e' : Event} (h : SameEvent C e e') :
    (∃ f f', SameEvent C f f' ∧ Parser.validateEventTag tags e = .ok f ∧ Parser.validateEventTag tags e' = .ok f') ∨
    ∃ x, Parser.validateEventTag tags e = .err x ∧ Parser.validateEventTag tags e' = .err x := by
  have hv : ∀ (t : Option (Str × Str)) (b : Bool), (∃ t', Parser.validateTag tags t b = .ok t') ∨ ∃ x, Parser.validateTag tags t b = .err x := by
    intro t b
    unfold Parser.validateTag
    split
    · exact .inl ⟨_, rfl⟩
    · dsimp only
      repeat' split
      all_goals first | exact .inl ⟨_, rfl⟩ | exact .inr ⟨_, rfl⟩
  cases h with
  | same =>
    have : (∃ f, Parser.validateEventTag tags e = .ok f) ∨ ∃ x, Parser.validateEventTag tags e = .err x := by
      unfold Parser.validateEventTag
      split
      · rcases hv (Node.tag ‹_›) true with ⟨t, h⟩ | ⟨x, h⟩ <;> rw [h]
        · exact .inl ⟨_, rfl⟩
        · exact .inr ⟨_, rfl⟩
      · rcases hv (Node.tag ‹_›) false with ⟨t, h⟩ | ⟨x, h⟩ <;> rw [h]
        · exact .inl ⟨_, rfl⟩
        · exact .inr ⟨_, rfl⟩
      · rcases hv (Node.tag ‹_›) false with ⟨t, h⟩ | ⟨x, h⟩ <;> rw [h]
        · exact .inl ⟨_, rfl⟩
        · exact .inr ⟨_, rfl⟩
      · exact .inl ⟨_, rfl⟩
    rcases this with ⟨f, h⟩ | ⟨x, h⟩
    · exact .inl ⟨f, f, .same _, h, h⟩
    · exact .inr ⟨x, h, h⟩
  | @scalar start stop n c c' hc =>
    unfold Parser.validateEventTag
    dsimp only
    rcases hv n.tag true with ⟨t, h⟩ | ⟨x, h⟩ <;> rw [h]
    · exact .inl ⟨_, _, .scalar hc, rfl, rfl⟩
    · exact .inr ⟨_, rfl, rfl⟩

theorem node (hC : ∀ c, C c c) (hT : Tied C F S d d') (block : Bool) (kind : NodeKind) :
    Both F S (MaybeSame C) (Parser.node d block kind) (Parser.node d' block kind) := by
  refine .bind (nodeEvent hC hT _ _) fun e e' h => ?_
  intro ps p p' hs
  show Res F S _ (SO.bind (SO.lift (Parser.validateEventTag ps.directives.tags e)) (fun ev => Pure.pure (some ev)) ⟨ps, p⟩)
    (SO.bind (SO.lift (Parser.validateEventTag ps.directives.tags e')) (fun ev => Pure.pure (some ev)) ⟨ps, p'⟩)
  rcases validate_same (tags := ps.directives.tags) h with ⟨f, f', h1, h2, h3⟩ | ⟨x, h2, h3⟩ <;> rw [h2, h3]
  · exact .ok (.some h1) hs
  · exact .err hs

theorem streamStart (hT : Tied C F S d d') : Both F S (MaybeSame C) (Parser.streamStart d) (Parser.streamStart d') := by
  refine .bind (Both.peek hT) fun e e' h => ?_
  simp only [h.marker]
  refine .ite (.bind (consumeStreamStart hT) ?_) .fail
  rintro ⟨_, _⟩ _ rfl
  exact .bind (.setTop _) fun _ _ _ => .pure some_same

theorem streamEnd (hT : Tied C F S d d') : Both F S (MaybeSame C) (Parser.streamEnd d) (Parser.streamEnd d') := by
  intro ps p p' hs
  have : Both F S (MaybeSame C)
      (if ps.done then pure none else do
        let at_ ← Parser.consumeStreamEnd d
        SO.modify fun s => { s with parser := { s.parser with done := true } }
        pure (some { start := at_, stop := at_, data := .StreamEnd }) : PM σ (Option Event))
      (if ps.done then pure none else do
        let at_ ← Parser.consumeStreamEnd d'
        SO.modify fun s => { s with parser := { s.parser with done := true } }
        pure (some { start := at_, stop := at_, data := .StreamEnd }) : PM τ (Option Event)) := by
    refine .ite (.pure .none) (.bind (consumeStreamEnd hT) ?_)
    rintro _ _ rfl
    exact .bind (Q := Eq) (fun _ _ _ hs => .ok rfl hs) fun _ _ _ => .pure some_same
  exact this ps p p' hs

theorem skipDocumentEnds (hT : Tied C F S d d') : ∀ fuel, Both F S Eq (Parser.skipDocumentEnds d fuel) (Parser.skipDocumentEnds d' fuel) := by
  intro fuel
  induction fuel with
  | zero => exact .diverge
  | succ fuel ih =>
    refine .bind (Both.peek hT) fun e e' h => ?_
    simp only [h.marker]
    exact .ite (.bind (Both.pop hT) fun _ _ _ => ih) (.pure rfl)

theorem documentMarker (hT : Tied C F S d d') : Both F S Eq (Parser.documentMarker d) (Parser.documentMarker d') := by
  refine .bind (Both.peek hT) fun e e' h => ?_
  simp only [h.marker]
  exact .ite (.bind (Both.pop hT) fun _ _ h => .pure h.readAt.symm) .fail

theorem documentStart (hT : Tied C F S d d') (fuel : Nat) (implicit first : Bool) :
    Both F S (MaybeSame C) (Parser.documentStart d fuel implicit first) (Parser.documentStart d' fuel implicit first) := by
  refine .bind (Q := Eq) (.ite (.pure rfl) (skipDocumentEnds hT _)) fun _ _ _ => .bind (Both.peek hT) fun e e' h => ?_
  simp only [h.marker]
  refine .ite ?_ (.ite ?_ (.ite ?_ ?_))
  · refine .bind (scanDocumentDirectives hT _) ?_
    rintro ⟨_, _, _⟩ _ rfl
    exact .bind (.pushState _) fun _ _ _ => .bind (.setTop _) fun _ _ _ => .bind (.setDirectives _) fun _ _ _ => .pure some_same
  · refine .bind (scanDocumentDirectives hT _) ?_
    rintro ⟨_, _, _⟩ _ rfl
    refine .bind (documentMarker hT) ?_
    rintro _ _ rfl
    exact .bind (.pushState _) fun _ _ _ => .bind (.setTop _) fun _ _ _ => .bind (.setDirectives _) fun _ _ _ => .pure some_same
  · refine .bind (scanDocumentDirectives hT _) ?_
    rintro ⟨_, _, _⟩ _ rfl
    exact .bind (.setTop _) fun _ _ _ => .bind (.setDirectives _) fun _ _ _ => .pure some_same
  · exact .bind (.setTop _) fun _ _ _ => .pure .none

theorem documentEnd (hT : Tied C F S d d') : Both F S (MaybeSame C) (Parser.documentEnd d) (Parser.documentEnd d') := by
  refine .bind (Both.peek hT) fun e e' h => ?_
  refine .bind (Q := Eq) ?_ ?_
  · unfold Parser.implicitEnd
    simp only [h.marker]
    exact .ite (.bind (Both.pop hT) fun _ _ _ => .pure rfl) (.pure rfl)
  · rintro _ _ rfl
    simp only [h.readAt]
    exact .bind (.setTop _) fun _ _ _ => .pure some_same

theorem explicitDocumentContent (hC : ∀ c, C c c) (hT : Tied C F S d d') :
    Both F S (MaybeSame C) (Parser.explicitDocumentContent d) (Parser.explicitDocumentContent d') := by
  refine .bind (Both.peek hT) fun e e' h => ?_
  simp only [h.marker]
  exact .ite (.bind .popState fun _ _ _ => .pure .none) (node hC hT _ _)

theorem popFirst (hT : Tied C F S d d') (first : Bool) : Both F S Eq (Parser.popFirst d first) (Parser.popFirst d' first) :=
  .ite (.bind (Both.pop hT) fun _ _ _ => .pure rfl) (.pure rfl)

theorem peekPopFirst (hT : Tied C F S d d') (first : Bool) : Both F S Eq (Parser.peekPopFirst d first) (Parser.peekPopFirst d' first) :=
  .ite (.bind (Both.peek hT) fun _ _ _ => .bind (Both.pop hT) fun _ _ _ => .pure rfl) (.pure rfl)

theorem setPure (st : State) (ev : Event) : Both F S (MaybeSame C) (do PM.setTop st; pure (some ev) : PM σ (Option Event))
    (do PM.setTop st; pure (some ev) : PM τ (Option Event)) :=
  .bind (.setTop _) fun _ _ _ => .pure some_same

theorem pushNode (hC : ∀ c, C c c) (hT : Tied C F S d d') (st : State) (block : Bool) (kind : NodeKind) :
    Both F S (MaybeSame C) (do PM.pushState st; Parser.node d block kind) (do PM.pushState st; Parser.node d' block kind) :=
  .bind (.pushState _) fun _ _ _ => node hC hT _ _

theorem blockSequenceEntry (hC : ∀ c, C c c) (hT : Tied C F S d d') (first : Bool) :
    Both F S (MaybeSame C) (Parser.blockSequenceEntry d first) (Parser.blockSequenceEntry d' first) := by
  refine .bind (popFirst hT _) fun _ _ _ => .bind (Both.peek hT) fun e e' h => ?_
  simp only [h.marker, h.readAt]
  generalize e.marker = m
  cases m with
  | BlockEntry =>
    refine .bind (Both.pop hT) fun _ _ _ => .bind (Both.peek hT) fun _ _ h => ?_
    simp only [h.marker]
    exact .ite (setPure _ _) (pushNode hC hT _ _ _)
  | BlockEnd => exact .bind (Both.pop hT) fun _ _ _ => .bind .popState fun _ _ _ => .pure some_same
  | _ => exact .fail

theorem blockMappingKey (hC : ∀ c, C c c) (hT : Tied C F S d d') (first : Bool) :
    Both F S (MaybeSame C) (Parser.blockMappingKey d first) (Parser.blockMappingKey d' first) := by
  refine .bind (peekPopFirst hT _) fun _ _ _ => .bind (Both.peek hT) fun e e' h => ?_
  simp only [h.marker, h.readAt]
  generalize e.marker = m
  cases m with
  | Key =>
    refine .bind (Both.pop hT) fun _ _ _ => .bind (Both.peek hT) fun _ _ h => ?_
    simp only [h.marker, h.readAt]
    exact .ite (pushNode hC hT _ _ _) (setPure _ _)
  | BlockEnd => exact .bind (Both.pop hT) fun _ _ _ => .bind .popState fun _ _ _ => .pure some_same
  | _ => exact .fail

theorem blockMappingValue (hC : ∀ c, C c c) (hT : Tied C F S d d') :
    Both F S (MaybeSame C) (Parser.blockMappingValue d) (Parser.blockMappingValue d') := by
  refine .bind (Both.peek hT) fun e e' h => ?_
  simp only [h.marker, h.readAt]
  generalize e.marker = m
  cases m with
  | Value =>
    refine .bind (Both.pop hT) fun _ _ _ => .bind (Both.peek hT) fun _ _ h => ?_
    simp only [h.marker, h.readAt]
    exact .ite (pushNode hC hT _ _ _) (setPure _ _)
  | _ => exact setPure _ _

theorem popFlowEntry (hT : Tied C F S d d') (first : Bool) {e e' : TokenEntry} (h : Entries C e e') (err : ParseError) :
    Both F S Eq (Parser.popFlowEntry d first e err) (Parser.popFlowEntry d' first e' err) := by
  unfold Parser.popFlowEntry
  simp only [h.marker]
  exact .ite (.pure rfl) (.ite (.bind (Both.pop hT) fun _ _ _ => .pure rfl) .fail)

theorem someEvent {x : PM σ Event} {y : PM τ Event} (h : Both F S (SameEvent C) x y) :
    Both F S (MaybeSame C) (do let ev ← x; pure (some ev)) (do let ev ← y; pure (some ev)) :=
  .bind h fun _ _ h => .pure (.some h)

theorem flowSequenceEntry (hC : ∀ c, C c c) (hT : Tied C F S d d') (first : Bool) :
    Both F S (MaybeSame C) (Parser.flowSequenceEntry d first) (Parser.flowSequenceEntry d' first) := by
  refine .bind (popFirst hT _) fun _ _ _ => .bind (Both.peek hT) fun e e' h => ?_
  simp only [h.marker, h.readAt]
  refine .ite (.bind (popFlowEntry hT _ h _) fun _ _ _ => .bind (Both.peek hT) fun _ _ h => ?_) (someEvent (fetchSequenceEnd hT _ _))
  simp only [h.marker, h.readAt]
  exact .ite (.bind (Both.pop hT) fun _ _ _ => setPure _ _) (.ite (pushNode hC hT _ _ _) (someEvent (fetchSequenceEnd hT _ _)))

theorem flowSequenceEntryMappingKey (hC : ∀ c, C c c) (hT : Tied C F S d d') :
    Both F S (MaybeSame C) (Parser.flowSequenceEntryMappingKey d) (Parser.flowSequenceEntryMappingKey d') := by
  refine .bind (Both.peek hT) fun e e' h => ?_
  simp only [h.marker, h.readAt]
  exact .ite (pushNode hC hT _ _ _) (setPure _ _)

theorem flowPairHasValue (hT : Tied C F S d d') {e e' : TokenEntry} (h : Entries C e e') :
    Both F S Eq (Parser.flowPairHasValue d e) (Parser.flowPairHasValue d' e') := by
  unfold Parser.flowPairHasValue
  simp only [h.marker]
  refine .ite (.bind (Both.pop hT) fun _ _ _ => .bind (Both.peek hT) fun _ _ h => ?_) (.pure rfl)
  simp only [h.marker]
  exact .pure rfl

theorem flowSequenceEntryMappingValue (hC : ∀ c, C c c) (hT : Tied C F S d d') :
    Both F S (MaybeSame C) (Parser.flowSequenceEntryMappingValue d) (Parser.flowSequenceEntryMappingValue d') := by
  refine .bind (Both.peek hT) fun e e' h => .bind (flowPairHasValue hT h) ?_
  rintro _ _ rfl
  simp only [h.readAt]
  exact .ite (pushNode hC hT _ _ _) (setPure _ _)

theorem flowSequenceEntryMappingEnd (hT : Tied C F S d d') :
    Both F S (MaybeSame C) (Parser.flowSequenceEntryMappingEnd d) (Parser.flowSequenceEntryMappingEnd d') := by
  refine .bind (Both.peek hT) fun e e' h => ?_
  simp only [h.readAt]
  exact setPure _ _

theorem flowMappingKey (hC : ∀ c, C c c) (hT : Tied C F S d d') (first : Bool) :
    Both F S (MaybeSame C) (Parser.flowMappingKey d first) (Parser.flowMappingKey d' first) := by
  refine .bind (popFirst hT _) fun _ _ _ => .bind (Both.peek hT) fun e e' h => ?_
  simp only [h.marker, h.readAt]
  refine .ite (.bind (popFlowEntry hT _ h _) fun _ _ _ => .bind (Both.peek hT) fun _ _ h => ?_) (someEvent (fetchMappingEnd hT _ _))
  simp only [h.marker, h.readAt]
  refine .ite (.bind (Both.pop hT) fun _ _ _ => .bind (Both.peek hT) fun _ _ h => ?_)
    (.ite (pushNode hC hT _ _ _) (someEvent (fetchMappingEnd hT _ _)))
  simp only [h.marker, h.readAt]
  exact .ite (pushNode hC hT _ _ _) (setPure _ _)

theorem flowMappingValue (hC : ∀ c, C c c) (hT : Tied C F S d d') (empty : Bool) :
    Both F S (MaybeSame C) (Parser.flowMappingValue d empty) (Parser.flowMappingValue d' empty) := by
  refine .bind (Both.peek hT) fun e e' h => ?_
  simp only [h.marker, h.readAt]
  refine .ite (setPure _ _) (.ite (.bind (Both.pop hT) fun _ _ _ => .bind (Both.peek hT) fun _ _ h => ?_) (setPure _ _))
  simp only [h.marker, h.readAt]
  exact .ite (pushNode hC hT _ _ _) (setPure _ _)

theorem stateTransition (hC : ∀ c, C c c) (hT : Tied C F S d d') (fuel : Nat) :
    Both F S (MaybeSame C) (Parser.stateTransition d fuel) (Parser.stateTransition d' fuel) := by
  intro ps p p' hs
  unfold Parser.stateTransition
  simp only [Bind.bind, SO.bind, SO.get]
  generalize ps.state.top = st
  cases st with
  | StreamStart => exact streamStart hT _ _ _ hs
  | DocumentStart i f => exact documentStart hT _ _ _ _ _ _ hs
  | DocumentContent => exact explicitDocumentContent hC hT _ _ _ hs
  | DocumentEnd => exact documentEnd hT _ _ _ hs
  | BlockNode => exact node hC hT _ _ _ _ _ hs
  | FlowNode => exact node hC hT _ _ _ _ _ hs
  | BlockSequenceEntry f => exact blockSequenceEntry hC hT _ _ _ _ hs
  | BlockMappingKey f => exact blockMappingKey hC hT _ _ _ _ hs
  | BlockMappingValue => exact blockMappingValue hC hT _ _ _ hs
  | FlowSequenceEntry f => exact flowSequenceEntry hC hT _ _ _ _ hs
  | FlowSequenceMappingKey => exact flowSequenceEntryMappingKey hC hT _ _ _ hs
  | FlowSequenceMappingValue => exact flowSequenceEntryMappingValue hC hT _ _ _ hs
  | FlowSequenceMappingEnd => exact flowSequenceEntryMappingEnd hT _ _ _ hs
  | FlowMappingKey f => exact flowMappingKey hC hT _ _ _ _ hs
  | FlowMappingValue f => exact flowMappingValue hC hT _ _ _ _ hs
  | StreamEnd => exact streamEnd hT _ _ _ hs

theorem nextEventLoop (hC : ∀ c, C c c) (hT : Tied C F S d d') (fuel : Nat) : ∀ n,
    Both F S (MaybeSame C) (Parser.nextEventLoop d fuel n) (Parser.nextEventLoop d' fuel n) := by
  intro n
  induction n with
  | zero => exact .diverge
  | succ n ih =>
    intro ps p p' hs
    have : Both F S (MaybeSame C)
        (if ps.done then pure none else do
          match ← Parser.stateTransition d fuel with
          | some ev => pure (some ev)
          | none => Parser.nextEventLoop d fuel n : PM σ (Option Event))
        (if ps.done then pure none else do
          match ← Parser.stateTransition d' fuel with
          | some ev => pure (some ev)
          | none => Parser.nextEventLoop d' fuel n : PM τ (Option Event)) := by
      refine .ite (.pure .none) (.bind (stateTransition hC hT _) fun a b h => ?_)
      cases h with
      | none => exact ih
      | some h => exact .pure (.some h)
    exact this ps p p' hs

/-- A call on each side. -/
theorem nextEvent (hC : ∀ c, C c c) (hT : Tied C F S d d') (fuel : Nat) :
    Both F S (MaybeSame C) (Parser.nextEvent d fuel) (Parser.nextEvent d' fuel) := nextEventLoop hC hT _ _

end Sim

end Yary

namespace Yary.Sim

open Spec

variable {σ τ : Type} {C : ScalarLike → ScalarLike → Prop} {S : PeekReader σ → PeekReader τ → Prop} {d : Drive σ} {d' : Drive τ}

theorem raise_not_ok {α β : Type} {o : Out ReaderError α} : ∀ e, (raise o : Out ParseError β) ≠ .ok e := by
  intro e h; cases o <;> cases h

theorem raise_source {α β : Type} {o : Out ReaderError α} : ∀ e, (raise o : Out ParseError β) = .err e → fromSource e = true := by
  intro e h
  cases o with
  | ok a => cases h
  | err x => cases h; cases x <;> rfl
  | panic => cases h
  | diverge => cases h

/-- The second stream does what the first does, until the source of the first fails. -/
theorem calls_follow {F : Out ReaderError (Option TokenEntry) → Prop} (hC : ∀ c, C c c) (hT : Tied C F S d d') {s s1 : PS σ} {os : List (Out ParseError (Option Event))}
    (h : Calls d s os s1) : ∀ {s' : PS τ}, s'.parser = s.parser → S s.tokens s'.tokens → ∃ os' s1', Calls d' s' os' s1' ∧ Follows C os os' := by
  induction h with
  | nil s => intro s' _ _; exact ⟨[], s', .nil _, .nil⟩
  | @cons s s2 s3 o os fuel h hd t ih =>
    intro s' h1 h2
    obtain ⟨ps, p⟩ := s
    obtain ⟨ps', p'⟩ := s'
    dsimp only at h1 h2
    subst h1
    have hr := nextEvent hC hT fuel ps' _ _ h2
    rw [h] at hr
    generalize hy : Parser.nextEvent d' fuel ⟨ps', p'⟩ = r' at hr
    cases hr with
    | ok hq hs =>
      obtain ⟨os', s1', h3, h4⟩ := ih (s' := ⟨_, _⟩) rfl hs
      refine ⟨_, s1', .cons fuel hy (fun h => by cases h) h3, ?_⟩
      cases hq with
      | none => exact .none h4
      | some he => exact .event he h4
    | @err e _ _ _ hs =>
      cases he : fromSource e with
      | true => exact ⟨[], _, .nil _, .fails (fun _ h => by cases h) (fun x h => by cases h; exact he)⟩
      | false =>
        obtain ⟨os', s1', h3, h4⟩ := ih (s' := ⟨_, _⟩) rfl hs
        exact ⟨_, s1', .cons fuel hy (fun h => by cases h) h3, .err he h4⟩
    | panic => exact ⟨[], _, .nil _, .fails (fun _ h => by cases h) (fun x h => by cases h)⟩
    | diverge => exact absurd rfl hd
    | same ho => exact ⟨[], _, .nil _, .fails raise_not_ok raise_source⟩
    | fails ho hf => exact ⟨[], _, .nil _, .fails raise_not_ok raise_source⟩

theorem sameEvent_eq {e e' : Event} (h : SameEvent Eq e e') : e = e' := by
  cases h with
  | same => rfl
  | scalar h => rw [h]

/-- The second stream does what the first does, up to and including a failure of the source. -/
theorem calls_same (hT : Tied Eq (fun _ => False) S d d') {s s1 : PS σ} {os : List (Out ParseError (Option Event))}
    (h : Calls d s os s1) : ∀ {s' : PS τ}, s'.parser = s.parser → S s.tokens s'.tokens → ∃ os' s1', Calls d' s' os' s1' ∧ upToSource os' = upToSource os := by
  induction h with
  | nil s => intro s' _ _; exact ⟨[], s', .nil _, rfl⟩
  | @cons s s2 s3 o os fuel h hd t ih =>
    intro s' h1 h2
    obtain ⟨ps, p⟩ := s
    obtain ⟨ps', p'⟩ := s'
    dsimp only at h1 h2
    subst h1
    have hr := nextEvent (fun c => rfl) hT fuel ps' _ _ h2
    rw [h] at hr
    generalize hy : Parser.nextEvent d' fuel ⟨ps', p'⟩ = r' at hr
    cases hr with
    | ok hq hs =>
      obtain ⟨os', s1', h3, h4⟩ := ih (s' := ⟨_, _⟩) rfl hs
      refine ⟨_, s1', .cons fuel hy (fun h => by cases h) h3, ?_⟩
      cases hq with
      | none => simp [upToSource, h4]
      | some he => rw [sameEvent_eq he]; simp [upToSource, h4]
    | @err e _ _ _ hs =>
      obtain ⟨os', s1', h3, h4⟩ := ih (s' := ⟨_, _⟩) rfl hs
      refine ⟨_, s1', .cons fuel hy (fun h => by cases h) h3, ?_⟩
      simp [upToSource, h4]
    | panic => exact ⟨_, _, .cons fuel hy (fun h => by cases h) (.nil _), rfl⟩
    | diverge => exact absurd rfl hd
    | @same x _ _ ho =>
      refine ⟨_, _, .cons fuel hy hd (.nil _), ?_⟩
      cases x with
      | ok t => exact absurd rfl (ho t)
      | err x => cases x <;> rfl
      | panic => rfl
      | diverge => rfl
    | fails ho hf => exact hf.elim

/-- Readers which report the same up to the first error. -/
def SameReports (d : Drive σ) (d' : Drive τ) (p : PeekReader σ) (p' : PeekReader τ) : Prop :=
  ∀ ops, upToError (runOps d ops p).1 = upToError (runOps d' ops p').1

theorem tied_same : Tied Eq (fun _ => False) (SameReports d d') d d' := by
  intro p p' hs op
  have h0 := hs [op]
  have h := fun ops => hs (op :: ops)
  simp only [runOps] at h h0
  generalize op.run d p = x at h h0 ⊢
  generalize op.run d' p' = y at h h0 ⊢
  obtain ⟨x, q⟩ := x
  obtain ⟨y, q'⟩ := y
  dsimp only at h h0
  cases x with
  | ok t =>
    cases y with
    | ok t' =>
      simp only [upToError, List.cons.injEq, Prod.mk.injEq, Out.ok.injEq, true_and] at h
      have ht : t = t' := (h []).1
      subst ht
      refine .inl ⟨t, t, rfl, rfl, ?_, fun ops => (h ops).2⟩
      cases t with
      | none => exact .none
      | some e => exact .some ⟨rfl, .same _⟩
    | err e => simp [upToError] at h0
    | panic => simp [upToError] at h0
    | diverge => simp [upToError] at h0
  | err e =>
    refine .inr ⟨(fun _ h => by cases h), .inl ?_⟩
    cases y <;> simp_all [upToError]
  | panic =>
    refine .inr ⟨(fun _ h => by cases h), .inl ?_⟩
    cases y <;> simp_all [upToError]
  | diverge =>
    refine .inr ⟨(fun _ h => by cases h), .inl ?_⟩
    cases y <;> simp_all [upToError]

/-- Readers of which the second follows the first. -/
def FollowReports (R : TokenEntry → TokenEntry → Prop) (d : Drive σ) (d' : Drive τ) (p : PeekReader σ) (p' : PeekReader τ) : Prop :=
  ∀ ops, Tracks R (runOps d ops p).1 (runOps d' ops p').1

theorem tied_follow {R : TokenEntry → TokenEntry → Prop} (hR : ∀ e e', R e e' → Entries C e e') :
    Tied C (fun _ => True) (FollowReports R d d') d d' := by
  intro p p' hs op
  have h0 := hs [op]
  have h := fun ops => hs (op :: ops)
  simp only [runOps] at h h0
  generalize op.run d p = x at h h0 ⊢
  generalize op.run d' p' = y at h h0 ⊢
  obtain ⟨x, q⟩ := x
  obtain ⟨y, q'⟩ := y
  dsimp only at h h0
  cases x with
  | ok t =>
    have hrest : ∀ {t t' : Option TokenEntry} {l l'}, Tracks R ((op, .ok t) :: l) ((op, .ok t') :: l') → Tracks R l l' := by
      intro t t' l l' h
      cases h with
      | token _ h => exact h
      | none h => exact h
      | fails hx => exact absurd rfl (hx _)
    cases h0 with
    | token he _ => exact .inl ⟨_, _, rfl, rfl, .some (hR _ _ he), fun ops => hrest (h ops)⟩
    | none _ => exact .inl ⟨_, _, rfl, rfl, .none, fun ops => hrest (h ops)⟩
    | fails hx => exact absurd rfl (hx _)
  | err e => exact .inr ⟨(fun _ h => by cases h), .inr trivial⟩
  | panic => exact .inr ⟨(fun _ h => by cases h), .inr trivial⟩
  | diverge => exact .inr ⟨(fun _ h => by cases h), .inr trivial⟩

/-- A scalar evaluates to a scalar. -/
theorem into_scalar {l : Yary.Lazy} {t : Token} (h : l.intoToken = .ok t) : ∃ data style, t = .Scalar data style := by
  cases l with
  | flow opts s stats single =>
    obtain ⟨⟨t', c⟩, h1, h2⟩ := Out.bind_eq_ok.1 h
    cases h2
    unfold scanFlowEager at h1
    obtain ⟨_, -, h1⟩ := Out.bind_eq_ok.1 h1
    obtain ⟨_, -, h1⟩ := Out.bind_eq_ok.1 h1
    obtain ⟨_, -, h1⟩ := Out.bind_eq_ok.1 h1
    obtain ⟨_, -, h1⟩ := Out.bind_eq_ok.1 h1
    obtain ⟨_, -, h1⟩ := Out.bind_eq_ok.1 h1
    obtain ⟨_, -, h1⟩ := Out.bind_eq_ok.1 h1
    cases h1
    exact ⟨_, _, rfl⟩
  | plain opts s stats indent blk =>
    obtain ⟨⟨t', c⟩, h1, h2⟩ := Out.bind_eq_ok.1 h
    cases h2
    unfold scanPlainEager at h1
    obtain ⟨_, -, h1⟩ := Out.bind_eq_ok.1 h1
    split at h1
    · cases h1
    · obtain ⟨_, -, h1⟩ := Out.bind_eq_ok.1 h1
      obtain ⟨_, -, h1⟩ := Out.bind_eq_ok.1 h1
      obtain ⟨_, -, h1⟩ := Out.bind_eq_ok.1 h1
      obtain ⟨_, -, h1⟩ := Out.bind_eq_ok.1 h1
      cases h1
      exact ⟨_, _, rfl⟩
  | block opts s stats indent fold =>
    obtain ⟨⟨t', c⟩, h1, h2⟩ := Out.bind_eq_ok.1 h
    cases h2
    unfold scanBlockEager at h1
    obtain ⟨_, -, h1⟩ := Out.bind_eq_ok.1 h1
    obtain ⟨_, -, h1⟩ := Out.bind_eq_ok.1 h1
    obtain ⟨_, -, h1⟩ := Out.bind_eq_ok.1 h1
    obtain ⟨_, -, h1⟩ := Out.bind_eq_ok.1 h1
    obtain ⟨_, -, h1⟩ := Out.bind_eq_ok.1 h1
    cases h1
    exact ⟨_, _, rfl⟩

/-- A token with a scalar value is a scalar. -/
theorem like_of_value {w : MaybeToken} {data : Str} {style : ScalarStyle} (h : valueOf w = .ok (.Scalar data style)) :
    ∃ c, likeOf w = some c ∧ scalarOf c = .ok (.Scalar data style) := by
  cases w with
  | Token t => cases h; exact ⟨_, rfl, rfl⟩
  | Deferred l => exact ⟨_, rfl, h⟩

theorem same_entries {e e' : TokenEntry} (h : SameValue e e') : Entries (fun c c' => c = c' ∨ SameScalar c c') e e' := by
  obtain ⟨h1, t, h2, h3⟩ := h
  refine ⟨h1, ?_⟩
  by_cases ht : ∃ data style, t = .Scalar data style
  · obtain ⟨data, style, rfl⟩ := ht
    obtain ⟨c, h4, h5⟩ := like_of_value h2
    obtain ⟨c', h6, h7⟩ := like_of_value h3
    exact .scalar h4 h6 (.inr ⟨_, h5, h7⟩)
  · have hw : ∀ {w : MaybeToken}, valueOf w = .ok t → w = .Token t := by
      intro w h
      cases w with
      | Token t' => cases h; rfl
      | Deferred l => exact absurd (into_scalar h) ht
    rw [hw h2, hw h3]
    exact .same _

theorem close_entries {e e' : TokenEntry} (h : CloseValue e e') : Entries (fun c c' => c = c' ∨ CloseScalar c c') e e' := by
  rcases h with h | ⟨h1, v, b, style, hs, hb, h2, h3⟩
  · obtain ⟨h1, h2⟩ := same_entries h
    refine ⟨h1, ?_⟩
    generalize e.wrap = w at h2 ⊢
    generalize e'.wrap = w' at h2 ⊢
    cases h2 with
    | same => exact .same _
    | scalar h h' hc => exact .scalar h h' (hc.imp id .inl)
  · obtain ⟨c, h4, h5⟩ := like_of_value h2
    obtain ⟨c', h6, h7⟩ := like_of_value h3
    exact ⟨h1, .scalar h4 h6 (.inr (.inr ⟨v, b, style, hs, hb, h5, h7⟩))⟩

theorem follows_mono {C C' : ScalarLike → ScalarLike → Prop} (h : ∀ e e', SameEvent C e e' → SameEvent C' e e')
    {os os' : List (Out ParseError (Option Event))} (hf : Follows C os os') : Follows C' os os' := by
  induction hf with
  | nil => exact .nil
  | event he _ ih => exact .event (h _ _ he) ih
  | none _ ih => exact .none ih
  | err he _ ih => exact .err he ih
  | fails ho hf => exact .fails ho hf

theorem sameEvent_or {e e' : Event} (h : SameEvent (fun c c' => c = c' ∨ C c c') e e') : SameEvent C e e' := by
  cases h with
  | same => exact .same _
  | scalar h =>
    rcases h with rfl | h
    · exact .same _
    · exact .scalar h

theorem raise_fails {o : Out ReaderError (Option TokenEntry)} : SourceFails (raise o) := ⟨raise_not_ok, raise_source⟩

/-- The second stream does what the first does, up to and including a failure of the source, or until the first fails to read. -/
theorem calls_agree {E : ReaderError → Prop} (hT : Tied Eq (fun o => ∃ e, o = .err e ∧ E e) S d d') {s s1 : PS σ} {os : List (Out ParseError (Option Event))}
    (h : Calls d s os s1) : ∀ {s' : PS τ}, s'.parser = s.parser → S s.tokens s'.tokens → ∃ os' s1', Calls d' s' os' s1' ∧ AgreeEvents E os os' := by
  induction h with
  | nil s => intro s' _ _; exact ⟨[], s', .nil _, .nil⟩
  | @cons s s2 s3 o os fuel h hd t ih =>
    intro s' h1 h2
    obtain ⟨ps, p⟩ := s
    obtain ⟨ps', p'⟩ := s'
    dsimp only at h1 h2
    subst h1
    have hr := nextEvent (fun c => rfl) hT fuel ps' _ _ h2
    rw [h] at hr
    generalize hy : Parser.nextEvent d' fuel ⟨ps', p'⟩ = r' at hr
    cases hr with
    | ok hq hs =>
      obtain ⟨os', s1', h3, h4⟩ := ih (s' := ⟨_, _⟩) rfl hs
      refine ⟨_, s1', .cons fuel hy (fun h => by cases h) h3, ?_⟩
      cases hq with
      | none => exact .goes (fun h => h.1 _ rfl) h4
      | some he => rw [← sameEvent_eq he]; exact .goes (fun h => h.1 _ rfl) h4
    | @err e _ _ _ hs =>
      obtain ⟨os', s1', h3, h4⟩ := ih (s' := ⟨_, _⟩) rfl hs
      refine ⟨_, s1', .cons fuel hy (fun h => by cases h) h3, ?_⟩
      cases he : fromSource e with
      | true => exact .stops ⟨(fun _ h => by cases h), fun x h => by cases h; exact he⟩
      | false => exact .goes (fun h => by rw [h.2 _ rfl] at he; cases he) h4
    | panic => exact ⟨_, _, .cons fuel hy (fun h => by cases h) (.nil _), .stops ⟨(fun _ h => by cases h), fun x h => by cases h⟩⟩
    | diverge => exact absurd rfl hd
    | same ho => exact ⟨_, _, .cons fuel hy hd (.nil _), .stops raise_fails⟩
    | fails ho hf =>
      obtain ⟨e, rfl, he⟩ := hf
      exact ⟨[], _, .nil _, .fails he⟩

/-- Readers which agree on what they report. -/
def AgreeReports (E : ReaderError → Prop) (d : Drive σ) (d' : Drive τ) (p : PeekReader σ) (p' : PeekReader τ) : Prop :=
  ∀ ops, Agree E (runOps d ops p).1 (runOps d' ops p').1

theorem tied_agree {E : ReaderError → Prop} : Tied Eq (fun o => ∃ e, o = .err e ∧ E e) (AgreeReports E d d') d d' := by
  intro p p' hs op
  have h0 := hs [op]
  have h := fun ops => hs (op :: ops)
  simp only [runOps] at h h0
  generalize op.run d p = x at h h0 ⊢
  generalize op.run d' p' = y at h h0 ⊢
  obtain ⟨x, q⟩ := x
  obtain ⟨y, q'⟩ := y
  dsimp only at h h0
  have hrest : ∀ {t t' : Option TokenEntry} {l l'}, Agree E ((op, .ok t) :: l) ((op, .ok t') :: l') → Agree E l l' := by
    intro t t' l l' h
    cases h with
    | ok h => exact h
    | same hx => exact absurd rfl (hx _)
  cases h0 with
  | @ok _ t _ _ _ =>
    refine .inl ⟨_, _, rfl, rfl, ?_, fun ops => hrest (h ops)⟩
    cases t with
    | none => exact .none
    | some e => exact .some ⟨rfl, .same _⟩
  | same hx => exact .inr ⟨hx, .inl rfl⟩
  | fails he => exact .inr ⟨(fun _ h => by cases h), .inr ⟨_, rfl, he⟩⟩

end Yary.Sim
