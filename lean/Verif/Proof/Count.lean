import Verif.Proof.TraceDoc
import Verif.Proof.Erase
import Verif.Spec.Reader

/-! How many events a number of tokens makes. -/

namespace Yary

open Spec PM

namespace Count

variable {σ : Type} {drive : Drive σ} {α β : Type}

/-- How many events a state may still owe: with `d = 0`, the tokens to come are counted. -/
def weight (d : Int) : State → Int
  | .StreamStart => d
  | .DocumentStart true _ => 1 + 2 * d
  | .DocumentStart false true => 1 + 2 * d
  | .DocumentStart false false => d - 1
  | .DocumentContent => d
  | .DocumentEnd => d
  | .BlockNode => d
  | .FlowNode => d
  | .BlockSequenceEntry _ => d - 1
  | .BlockMappingKey _ => d - 1
  | .BlockMappingValue => d
  | .FlowSequenceEntry _ => d - 1
  | .FlowSequenceMappingKey => d + 2
  | .FlowSequenceMappingValue => d + 1
  | .FlowSequenceMappingEnd => d
  | .FlowMappingKey _ => d - 1
  | .FlowMappingValue _ => d
  | .StreamEnd => d - 1

/-- The weight of the stack. -/
def below (d : Int) (ps : Parser) : Int := (ps.state.stack.map (weight d)).sum + (if ps.done then 1 else 0)

/-- The weight of a parser. -/
def total (d : Int) (ps : Parser) : Int := weight d ps.state.top + below d ps

/-- Whenever `x` returns, it has taken some number of tokens, and `Q` holds. -/
def At (drive : Drive σ) (ps : Parser) (x : PM σ α) (Q : α → Parser → Nat → Prop) : Prop :=
  ∀ p a s', x ⟨ps, p⟩ = (.ok a, s') → ∃ ts, Pops drive p ts s'.tokens ∧ Q a s'.parser ts.length

variable {ps : Parser} {Q : β → Parser → Nat → Prop}

theorem At.pure {a : β} (h : Q a ps 0) : At drive ps (pure a) Q := by
  intro p a' s' he
  cases he
  exact ⟨[], .nil _, h⟩

theorem At.fail {e : ParseError} : At drive ps (SO.fail e) Q := by intro p a s' h; cases h
theorem At.panic : At drive ps SO.panic Q := by intro p a s' h; cases h
theorem At.diverge : At drive ps SO.diverge Q := by intro p a s' h; cases h

theorem At.mono {Q' : β → Parser → Nat → Prop} {x : PM σ β} (h : At drive ps x Q) (hm : ∀ a ps' n, Q a ps' n → Q' a ps' n) : At drive ps x Q' := by
  intro p a s' he
  obtain ⟨ts, h1, h2⟩ := h p a s' he
  exact ⟨ts, h1, hm _ _ _ h2⟩

theorem At.bind {x : PM σ α} {f : α → PM σ β} {Q1 : α → Parser → Nat → Prop} (h : At drive ps x Q1)
    (h' : ∀ a ps1 n, Q1 a ps1 n → At drive ps1 (f a) fun b ps2 m => Q b ps2 (n + m)) : At drive ps (x >>= f) Q := by
  intro p b s2 he
  have he : SO.bind x f ⟨ps, p⟩ = (.ok b, s2) := he
  unfold SO.bind at he
  generalize hx : x ⟨ps, p⟩ = r at he
  obtain ⟨o, s1⟩ := r
  cases o with
  | ok a =>
    obtain ⟨ts, h1, h2⟩ := h _ _ _ hx
    obtain ⟨us, h3, h4⟩ := h' _ _ _ h2 s1.tokens b s2 he
    exact ⟨ts ++ us, h1.append h3, by rw [List.length_append]; exact h4⟩
  | err e => cases he
  | panic => cases he
  | diverge => cases he

theorem At.ite {c : Prop} [Decidable c] {x y : PM σ β} (h : c → At drive ps x Q) (h' : ¬ c → At drive ps y Q) : At drive ps (if c then x else y) Q := by
  split
  · exact h ‹_›
  · exact h' ‹_›

theorem At.onState {f : StateMachine → StateMachine} {Q : Unit → Parser → Nat → Prop} (h : Q () { ps with state := f ps.state } 0) :
    At drive ps (PM.onState f) Q := by
  intro p a s' he
  cases he
  exact ⟨[], .nil _, h⟩

theorem At.setDirectives {d : Directives} {Q : Unit → Parser → Nat → Prop} (h : Q () { ps with directives := d } 0) :
    At drive ps (Parser.setDirectives d) Q := by
  intro p a s' he
  cases he
  exact ⟨[], .nil _, h⟩

theorem At.peekMaybe {Q : Option TokenEntry → Parser → Nat → Prop} (h : ∀ e, Q e ps 0) : At drive ps (PM.peekMaybe drive) Q := by
  intro p a s' he
  unfold PM.peekMaybe PM.onTokens at he
  dsimp only at he
  generalize hp : p.peek drive = r at he
  obtain ⟨o, q⟩ := r
  cases o with
  | ok t => cases he; exact ⟨[], .peek hp (.nil _), h _⟩
  | err e => cases he
  | panic => cases he
  | diverge => cases he

theorem At.peek {Q : TokenEntry → Parser → Nat → Prop} (h : ∀ e, Q e ps 0) : At drive ps (PM.peek drive) Q := by
  refine .bind (Q1 := fun _ ps' n => ps' = ps ∧ n = 0) (At.peekMaybe fun _ => ⟨rfl, rfl⟩) ?_
  rintro a _ _ ⟨rfl, rfl⟩
  cases a with
  | none => exact .fail
  | some e => exact .pure (h e)

theorem At.pop {Q : TokenEntry → Parser → Nat → Prop} (h : ∀ e, Q e ps 1) : At drive ps (PM.pop drive) Q := by
  intro p a s' he
  have he : SO.bind (PM.onTokens (PeekReader.pop drive)) _ ⟨ps, p⟩ = (.ok a, s') := he
  unfold SO.bind PM.onTokens at he
  dsimp only at he
  generalize hp : p.pop drive = r at he
  obtain ⟨o, q⟩ := r
  cases o with
  | ok t =>
    cases t with
    | none => cases he
    | some e => cases he; exact ⟨[_], .pop hp (.nil _), h _⟩
  | err e => cases he
  | panic => cases he
  | diverge => cases he

/-- Taking one token. -/
theorem At.taking {f : TokenEntry → PM σ β} (h : ∀ e, At drive ps (f e) fun b ps' n => Q b ps' (1 + n)) : At drive ps (PM.pop drive >>= f) Q := by
  refine .bind (Q1 := fun _ ps' n => ps' = ps ∧ n = 1) (At.pop fun _ => ⟨rfl, rfl⟩) ?_
  rintro a _ _ ⟨rfl, rfl⟩
  exact h a

theorem At.looking {f : TokenEntry → PM σ β} (h : ∀ e, At drive ps (f e) fun b ps' n => Q b ps' (0 + n)) : At drive ps (PM.peek drive >>= f) Q := by
  refine .bind (Q1 := fun _ ps' n => ps' = ps ∧ n = 0) (At.peek fun _ => ⟨rfl, rfl⟩) ?_
  rintro a _ _ ⟨rfl, rfl⟩
  exact h a

theorem At.setting {f : StateMachine → StateMachine} {y : Unit → PM σ β} (h : At drive { ps with state := f ps.state } (y ()) fun b ps' n => Q b ps' (0 + n)) :
    At drive ps (PM.onState f >>= y) Q := by
  refine .bind (Q1 := fun _ ps' n => ps' = { ps with state := f ps.state } ∧ n = 0) (At.onState ⟨rfl, rfl⟩) ?_
  rintro ⟨⟩ _ _ ⟨rfl, rfl⟩
  exact h

/-- A handler takes one token, and leaves the parser alone. -/
def One (ps : Parser) : α → Parser → Nat → Prop := fun _ ps' n => ps' = ps ∧ n = 1

syntax "one" : tactic
macro_rules
  | `(tactic| one) => `(tactic| (refine At.taking fun _ => ?_; split <;> (first | exact At.panic | exact At.pure ⟨rfl, rfl⟩)))

theorem consumeStreamStart : At drive ps (Parser.consumeStreamStart drive) (One ps) := by one
theorem consumeStreamEnd : At drive ps (Parser.consumeStreamEnd drive) (One ps) := by one
theorem consumeVersion : At drive ps (Parser.consumeVersion drive) (One ps) := by one
theorem consumeTagDirective : At drive ps (Parser.consumeTagDirective drive) (One ps) := by one
theorem consumeAlias : At drive ps (Parser.consumeAlias drive) (One ps) := by one
theorem consumeAnchor : At drive ps (Parser.consumeAnchor drive) (One ps) := by one
theorem consumeTag : At drive ps (Parser.consumeTag drive) (One ps) := by one
theorem consumeScalar : At drive ps (Parser.consumeScalar drive) (One ps) := by one

theorem scanDirectivesLoop : ∀ fuel stop seen d, At drive ps (Parser.scanDirectivesLoop drive fuel stop seen d) fun _ ps' _ => ps' = ps := by
  intro fuel
  induction fuel with
  | zero => intro _ _ _; exact .diverge
  | succ fuel ih =>
    intro stop seen d
    refine .looking fun e => ?_
    split
    · refine .ite (fun _ => ?_) fun _ => .fail
      refine .bind consumeVersion ?_
      rintro ⟨_, _⟩ _ _ ⟨rfl, rfl⟩
      exact ih _ _ _
    · refine .bind consumeTagDirective ?_
      rintro ⟨_, _, _⟩ _ _ ⟨rfl, rfl⟩
      exact .ite (fun _ => .fail) fun _ => ih _ _ _
    · exact .pure rfl

theorem scanDocumentDirectives (fuel : Nat) : At drive ps (Parser.scanDocumentDirectives drive fuel) fun _ ps' _ => ps' = ps := by
  refine .looking fun e => .bind (scanDirectivesLoop _ _ _ _) ?_
  rintro ⟨_, _⟩ _ _ rfl
  exact .pure rfl

theorem skipDocumentEnds : ∀ fuel, At drive ps (Parser.skipDocumentEnds drive fuel) fun _ ps' _ => ps' = ps := by
  intro fuel
  induction fuel with
  | zero => exact .diverge
  | succ fuel ih => exact .looking fun e => .ite (fun _ => .taking fun _ => ih) fun _ => .pure rfl

theorem fetchAnchor (start : Nat) : At drive ps (Parser.fetchAnchor drive start) fun r ps' n => ps' = ps ∧ (r.2.isSome → 1 ≤ n) := by
  refine .bind (Q1 := fun _ ps' n => ps' = ps ∧ n = 0) (At.peekMaybe fun _ => ⟨rfl, rfl⟩) ?_
  rintro a _ _ ⟨rfl, rfl⟩
  cases a with
  | none => exact .pure ⟨rfl, fun h => by cases h⟩
  | some e =>
    refine .ite (fun _ => ?_) fun _ => .pure ⟨rfl, fun h => by cases h⟩
    refine .bind consumeAnchor ?_
    rintro ⟨_, _⟩ _ _ ⟨rfl, rfl⟩
    exact .pure ⟨rfl, fun _ => by omega⟩

theorem fetchTag (start : Nat) : At drive ps (Parser.fetchTag drive start) fun r ps' n => ps' = ps ∧ (r.2.isSome → 1 ≤ n) := by
  refine .bind (Q1 := fun _ ps' n => ps' = ps ∧ n = 0) (At.peekMaybe fun _ => ⟨rfl, rfl⟩) ?_
  rintro a _ _ ⟨rfl, rfl⟩
  cases a with
  | none => exact .pure ⟨rfl, fun h => by cases h⟩
  | some e =>
    refine .ite (fun _ => ?_) fun _ => .pure ⟨rfl, fun h => by cases h⟩
    refine .bind consumeTag ?_
    rintro ⟨_, _, _⟩ _ _ ⟨rfl, rfl⟩
    exact .pure ⟨rfl, fun _ => by omega⟩

theorem nodeProperties (m : Marker) (start : Nat) :
    At drive ps (Parser.nodeProperties drive m start) fun r ps' n => ps' = ps ∧ (r.2.1.isSome ∨ r.2.2.isSome → 1 ≤ n) := by
  unfold Parser.nodeProperties
  split
  · refine .bind (fetchAnchor _) ?_
    rintro ⟨_, _⟩ _ n ⟨rfl, h1⟩
    refine .bind (fetchTag _) ?_
    rintro ⟨_, _⟩ _ m ⟨rfl, h2⟩
    refine .pure ⟨rfl, ?_⟩
    rintro (h | h)
    · have := h1 h; omega
    · have := h2 h; omega
  · refine .bind (fetchTag _) ?_
    rintro ⟨_, _⟩ _ n ⟨rfl, h1⟩
    refine .bind (fetchAnchor _) ?_
    rintro ⟨_, _⟩ _ m ⟨rfl, h2⟩
    refine .pure ⟨rfl, ?_⟩
    rintro (h | h)
    · have := h2 h; omega
    · have := h1 h; omega
  · refine .pure ⟨rfl, ?_⟩
    rintro (h | h) <;> cases h

theorem pop_total (d : Int) (ps : Parser) : total d { ps with state := ps.state.pop } = below d ps ∨
    ps.state.stack = [] ∧ total d { ps with state := ps.state.pop } = total d ps := by
  unfold total below StateMachine.pop
  cases h : ps.state.stack with
  | nil => exact .inr ⟨rfl, by simp [h]⟩
  | cons s l => exact .inl (by simp; omega)

/-- A node: either a collection starts, or a token was taken. -/
def Nodes (d : Int) (ps : Parser) (ps' : Parser) (n : Nat) : Prop :=
  total d ps' = below d ps + (d - 1) ∨ 1 ≤ n ∧ (total d ps' = below d ps ∨ ps.state.stack = [] ∧ total d ps' = total d ps)

theorem nodeContent {d : Int} (block : Bool) (kind : NodeKind) (start : Nat) (anchor : Option Str) (tag : Option (Str × Str)) :
    At drive ps (Parser.nodeContent drive block kind start anchor tag) fun _ ps' n => ∀ m, (anchor.isSome ∨ tag.isSome → 1 ≤ m) → Nodes d ps ps' (m + n) := by
  refine .looking fun e => ?_
  have hi : ∀ (stop : Nat) (n : Node), At drive ps
      (if (anchor.isSome || tag.isSome) = true then (do
        PM.popState
        pure { start := start, stop := stop, data := .Scalar n ScalarLike.empty } : PM σ Event)
      else SO.fail .MissingNode) fun _ ps' n => ∀ m, (anchor.isSome ∨ tag.isSome → 1 ≤ m) → Nodes d ps ps' (m + (0 + n)) := by
    intro stop n
    refine .ite (fun h => .setting (.pure fun m hm => .inr ⟨?_, pop_total d ps⟩)) fun _ => .fail
    have := hm (by simpa using h)
    omega
  have hset : ∀ (st : State) (ev : Event), weight d st = d - 1 → At drive ps (do PM.setTop st; pure ev : PM σ Event)
      fun _ ps' n => ∀ m, (anchor.isSome ∨ tag.isSome → 1 ≤ m) → Nodes d ps ps' (m + (0 + n)) := by
    intro st ev hw
    refine .setting (.pure fun m _ => .inl ?_)
    simp only [total, below, StateMachine.setTop, hw]
    omega
  dsimp only
  split
  · exact hset _ _ rfl
  · exact hset _ _ rfl
  · exact .ite (fun _ => hset _ _ rfl) fun _ => hi _ _
  · exact .ite (fun _ => hset _ _ rfl) fun _ => hi _ _
  · refine .bind consumeScalar ?_
    rintro ⟨_, _⟩ _ _ ⟨rfl, rfl⟩
    exact .setting (.pure fun m _ => .inr ⟨by omega, pop_total _ _⟩)
  · exact hi _ _

theorem nodeEvent {d : Int} (block : Bool) (kind : NodeKind) : At drive ps (Parser.nodeEvent drive block kind) fun _ ps' n => Nodes d ps ps' n := by
  refine .looking fun e => .ite (fun _ => .setting ?_) fun _ => ?_
  · refine .bind consumeAlias ?_
    rintro ⟨_, _⟩ _ _ ⟨rfl, rfl⟩
    exact .pure (.inr ⟨by omega, pop_total _ _⟩)
  · refine .bind (nodeProperties _ _) ?_
    rintro ⟨_, a, t⟩ _ n ⟨rfl, h1⟩
    refine (nodeContent (d := d) _ _ _ _ _).mono fun _ ps' m h => ?_
    rw [Nat.zero_add]
    exact h n h1

theorem node {d : Int} (block : Bool) (kind : NodeKind) : At drive ps (Parser.node drive block kind) fun r ps' n => r.isSome ∧ Nodes d ps ps' n := by
  refine .bind (nodeEvent (d := d) _ _) fun ev ps' n h => ?_
  intro p a s' he
  have he : SO.bind (SO.lift (Parser.validateEventTag ps'.directives.tags ev)) (fun ev => Pure.pure (some ev)) ⟨ps', p⟩ = (.ok a, s') := he
  unfold SO.bind SO.lift at he
  dsimp only at he
  generalize Parser.validateEventTag ps'.directives.tags ev = o at he
  cases o with
  | ok ev' => cases he; exact ⟨[], .nil _, rfl, h⟩
  | err e => cases he
  | panic => cases he
  | diverge => cases he

/-- A transition pays for its event. -/
def Pays (d : Int) (ps : Parser) (r : Option Event) (ps' : Parser) (n : Nat) : Prop := total d ps' + r.toList.length ≤ total d ps + (2 + d) * n

theorem Pays.cast {d : Int} {ps ps' : Parser} {r : Option Event} {n m : Nat} (h : Pays d ps r ps' n) (e : n = m) : Pays d ps r ps' m := e ▸ h

variable {d : Int}

theorem rootNode (hd : d = 0 ∨ d = 1) (block : Bool) (kind : NodeKind) (hw : weight d ps.state.top = d) :
    At drive ps (Parser.node drive block kind) fun r ps' n => Pays d ps r ps' n := by
  refine (node (d := d) _ _).mono ?_
  rintro (_ | ev) ps' n ⟨h, h'⟩
  · cases h
  · unfold Pays
    simp only [Option.toList_some, List.length_singleton]
    unfold Nodes total at h'
    unfold total
    rcases hd with rfl | rfl <;> rcases h' with h | ⟨h1, h2 | ⟨-, h2⟩⟩ <;> omega

theorem pushNode (hd : d = 0 ∨ d = 1) (st : State) (block : Bool) (kind : NodeKind) (k : Nat) (hk : weight d st + d ≤ weight d ps.state.top + (2 + d) * k) :
    At drive ps (do PM.pushState st; Parser.node drive block kind) fun r ps' n => Pays d ps r ps' (k + n) := by
  refine .setting ((node (d := d) _ _).mono ?_)
  rintro (_ | ev) ps' n ⟨h, h'⟩
  · cases h
  · unfold Pays
    simp only [Option.toList_some, List.length_singleton]
    have hb : below d { ps with state := ps.state.push st } = weight d st + below d ps := by
      simp only [below, StateMachine.push, List.map_cons, List.sum_cons]
      omega
    unfold Nodes at h'
    rw [hb] at h'
    have hs : ({ ps with state := ps.state.push st } : Parser).state.stack ≠ [] := by simp [StateMachine.push]
    unfold total at h' ⊢
    rcases hd with rfl | rfl <;> rcases h' with h | ⟨h1, h2 | ⟨h2, -⟩⟩ <;> first | omega | exact absurd h2 hs

theorem setPure (hd : d = 0 ∨ d = 1) (st : State) (ev : Event) (k : Nat) (hk : weight d st + 1 ≤ weight d ps.state.top + (2 + d) * k) :
    At drive ps (do PM.setTop st; pure (some ev) : PM σ (Option Event)) fun r ps' n => Pays d ps r ps' (k + n) := by
  refine .setting (.pure ?_)
  unfold Pays
  simp only [Option.toList_some, List.length_singleton, total, below, StateMachine.setTop]
  rcases hd with rfl | rfl <;> omega

/-- The end of a collection. -/
theorem ended (hd : d = 0 ∨ d = 1) {n : Nat} (ev : Event) (hn : 1 ≤ n) (hw : weight d ps.state.top = d - 1) :
    Pays d ps (some ev) { ps with state := ps.state.pop } n := by
  have := pop_total d ps
  unfold Pays
  simp only [Option.toList_some, List.length_singleton]
  rcases hd with rfl | rfl <;> rcases this with h | ⟨-, h⟩ <;> rw [h] <;> (try unfold total) <;> omega

/-- A handler in its state. -/
abbrev Fair (drive : Drive σ) (d : Int) (ps : Parser) (x : PM σ (Option Event)) : Prop := At drive ps x (Pays d ps)

syntax "num" : tactic
macro_rules
  | `(tactic| num) => `(tactic| (rcases ‹_ = (0 : Int) ∨ _› with rfl | rfl <;> simp_all [weight]))

theorem streamStart (hd : d = 0 ∨ d = 1) (ht : ps.state.top = .StreamStart) : Fair drive d ps (Parser.streamStart drive) := by
  refine .looking fun e => .ite (fun _ => ?_) fun _ => .fail
  refine .bind consumeStreamStart ?_
  rintro ⟨_, _⟩ _ _ ⟨rfl, rfl⟩
  exact (setPure hd _ _ 1 (by num)).mono fun _ _ _ h => h.cast (by omega)

theorem popFirst (first : Bool) : At drive ps (Parser.popFirst drive first) fun _ ps' n => ps' = ps ∧ n = if first then 1 else 0 :=
  .ite (fun h => .taking fun _ => .pure ⟨rfl, by simp [h]⟩) fun h => .pure ⟨rfl, by simp [h]⟩

theorem peekPopFirst (first : Bool) : At drive ps (Parser.peekPopFirst drive first) fun _ ps' n => ps' = ps ∧ n = if first then 1 else 0 :=
  .ite (fun h => .looking fun _ => .taking fun _ => .pure ⟨rfl, by simp [h]⟩) fun h => .pure ⟨rfl, by simp [h]⟩

theorem popFlowEntry (first : Bool) (e : TokenEntry) (err : ParseError) : At drive ps (Parser.popFlowEntry drive first e err) fun _ ps' n => ps' = ps ∧ n = if first then 0 else 1 :=
  .ite (fun h => .pure ⟨rfl, by simp [h]⟩) fun h => .ite (fun _ => .taking fun _ => .pure ⟨rfl, by simp [h]⟩) fun _ => .fail

theorem blockSequenceEntry (hd : d = 0 ∨ d = 1) {first : Bool} (ht : ps.state.top = .BlockSequenceEntry first) : Fair drive d ps (Parser.blockSequenceEntry drive first) := by
  refine .bind (popFirst _) ?_
  rintro _ _ n ⟨rfl, -⟩
  refine .looking fun e => ?_
  split
  · refine .taking fun _ => .looking fun e' => .ite (fun _ => ?_) fun _ => ?_
    · exact (setPure hd _ _ (n + 1) (by num <;> omega)).mono fun _ _ _ h => h.cast (by omega)
    · exact (pushNode hd _ _ _ (n + 1) (by num <;> omega)).mono fun _ _ _ h => h.cast (by omega)
  · exact .taking fun _ => .setting (.pure (ended hd _ (by omega) (by rw [ht]; rfl)))
  · exact .fail

theorem blockMappingKey (hd : d = 0 ∨ d = 1) {first : Bool} (ht : ps.state.top = .BlockMappingKey first) : Fair drive d ps (Parser.blockMappingKey drive first) := by
  refine .bind (peekPopFirst _) ?_
  rintro _ _ n ⟨rfl, -⟩
  refine .looking fun e => ?_
  split
  · refine .taking fun _ => .looking fun e' => .ite (fun _ => ?_) fun _ => ?_
    · exact (pushNode hd _ _ _ (n + 1) (by num <;> omega)).mono fun _ _ _ h => h.cast (by omega)
    · exact (setPure hd _ _ (n + 1) (by num <;> omega)).mono fun _ _ _ h => h.cast (by omega)
  · exact .taking fun _ => .setting (.pure (ended hd _ (by omega) (by rw [ht]; rfl)))
  · exact .fail

theorem blockMappingValue (hd : d = 0 ∨ d = 1) (ht : ps.state.top = .BlockMappingValue) : Fair drive d ps (Parser.blockMappingValue drive) := by
  refine .looking fun e => ?_
  split
  · refine .taking fun _ => .looking fun e' => .ite (fun _ => ?_) fun _ => ?_
    · exact (pushNode hd _ _ _ 1 (by num)).mono fun _ _ _ h => h.cast (by omega)
    · exact (setPure hd _ _ 1 (by num)).mono fun _ _ _ h => h.cast (by omega)
  · exact (setPure hd _ _ 0 (by num)).mono fun _ _ _ h => h.cast (by omega)

theorem fetchSequenceEnd (hd : d = 0 ∨ d = 1) (a b k : Nat) (hw : weight d ps.state.top = d - 1) :
    At drive ps (do let ev ← Parser.fetchSequenceEnd drive a b; pure (some ev) : PM σ (Option Event)) fun r ps' n => Pays d ps r ps' (k + n) :=
  .bind (Q1 := fun _ ps' n => ps' = { ps with state := ps.state.pop } ∧ n = 1) (.setting (.taking fun _ => .pure ⟨rfl, rfl⟩))
    (by rintro _ _ _ ⟨rfl, rfl⟩; exact .pure (ended hd _ (by omega) hw))

theorem fetchMappingEnd (hd : d = 0 ∨ d = 1) (a b k : Nat) (hw : weight d ps.state.top = d - 1) :
    At drive ps (do let ev ← Parser.fetchMappingEnd drive a b; pure (some ev) : PM σ (Option Event)) fun r ps' n => Pays d ps r ps' (k + n) :=
  .bind (Q1 := fun _ ps' n => ps' = { ps with state := ps.state.pop } ∧ n = 1) (.setting (.taking fun _ => .pure ⟨rfl, rfl⟩))
    (by rintro _ _ _ ⟨rfl, rfl⟩; exact .pure (ended hd _ (by omega) hw))

theorem flowSequenceEntry (hd : d = 0 ∨ d = 1) {first : Bool} (ht : ps.state.top = .FlowSequenceEntry first) : Fair drive d ps (Parser.flowSequenceEntry drive first) := by
  refine .bind (popFirst _) ?_
  rintro _ _ n ⟨rfl, hn⟩
  refine .looking fun e => .ite (fun _ => ?_) fun _ => (fetchSequenceEnd hd _ _ n (by rw [ht]; rfl)).mono fun _ _ _ h => h.cast (by omega)
  refine .bind (popFlowEntry _ _ _) ?_
  rintro _ _ m ⟨rfl, hm⟩
  have hnm : n + m = 1 := by subst hn hm; cases first <;> rfl
  clear hn hm
  refine .looking fun e => .ite (fun _ => .taking fun _ => ?_) fun _ => .ite (fun _ => ?_) fun _ => ?_
  · exact (setPure hd _ _ 2 (by num)).mono fun _ _ _ h => h.cast (by omega)
  · exact (pushNode hd _ _ _ 1 (by num)).mono fun _ _ _ h => h.cast (by omega)
  · exact (fetchSequenceEnd hd _ _ 1 (by rw [ht]; rfl)).mono fun _ _ _ h => h.cast (by omega)

theorem flowSequenceEntryMappingKey (hd : d = 0 ∨ d = 1) (ht : ps.state.top = .FlowSequenceMappingKey) : Fair drive d ps (Parser.flowSequenceEntryMappingKey drive) := by
  refine .looking fun e => .ite (fun _ => ?_) fun _ => ?_
  · exact (pushNode hd _ _ _ 0 (by num)).mono fun _ _ _ h => h.cast (by omega)
  · exact (setPure hd _ _ 0 (by num)).mono fun _ _ _ h => h.cast (by omega)

theorem flowPairHasValue (e : TokenEntry) : At drive ps (Parser.flowPairHasValue drive e) fun _ ps' _ => ps' = ps :=
  .ite (fun _ => .taking fun _ => .looking fun _ => .pure rfl) fun _ => .pure rfl

theorem flowSequenceEntryMappingValue (hd : d = 0 ∨ d = 1) (ht : ps.state.top = .FlowSequenceMappingValue) : Fair drive d ps (Parser.flowSequenceEntryMappingValue drive) := by
  refine .looking fun e => .bind (flowPairHasValue _) ?_
  rintro _ _ n rfl
  refine .ite (fun _ => ?_) fun _ => ?_
  · exact (pushNode hd _ _ _ n (by num <;> omega)).mono fun _ _ _ h => h.cast (by omega)
  · exact (setPure hd _ _ n (by num <;> omega)).mono fun _ _ _ h => h.cast (by omega)

theorem flowSequenceEntryMappingEnd (hd : d = 0 ∨ d = 1) (ht : ps.state.top = .FlowSequenceMappingEnd) : Fair drive d ps (Parser.flowSequenceEntryMappingEnd drive) :=
  .looking fun e => (setPure hd _ _ 0 (by num)).mono fun _ _ _ h => h.cast (by omega)

theorem flowMappingKey (hd : d = 0 ∨ d = 1) {first : Bool} (ht : ps.state.top = .FlowMappingKey first) : Fair drive d ps (Parser.flowMappingKey drive first) := by
  refine .bind (popFirst _) ?_
  rintro _ _ n ⟨rfl, hn⟩
  refine .looking fun e => .ite (fun _ => ?_) fun _ => (fetchMappingEnd hd _ _ n (by rw [ht]; rfl)).mono fun _ _ _ h => h.cast (by omega)
  refine .bind (popFlowEntry _ _ _) ?_
  rintro _ _ m ⟨rfl, hm⟩
  have hnm : n + m = 1 := by subst hn hm; cases first <;> rfl
  clear hn hm
  refine .looking fun e => .ite (fun _ => .taking fun _ => .looking fun _ => .ite (fun _ => ?_) fun _ => ?_) fun _ => .ite (fun _ => ?_) fun _ => ?_
  · exact (pushNode hd _ _ _ 2 (by num)).mono fun _ _ _ h => h.cast (by omega)
  · exact (setPure hd _ _ 2 (by num)).mono fun _ _ _ h => h.cast (by omega)
  · exact (pushNode hd _ _ _ 1 (by num)).mono fun _ _ _ h => h.cast (by omega)
  · exact (fetchMappingEnd hd _ _ 1 (by rw [ht]; rfl)).mono fun _ _ _ h => h.cast (by omega)

theorem flowMappingValue (hd : d = 0 ∨ d = 1) {empty : Bool} (ht : ps.state.top = .FlowMappingValue empty) : Fair drive d ps (Parser.flowMappingValue drive empty) := by
  refine .looking fun e => .ite (fun _ => ?_) fun _ => .ite (fun _ => .taking fun _ => .looking fun _ => .ite (fun _ => ?_) fun _ => ?_) fun _ => ?_
  · exact (setPure hd _ _ 0 (by num)).mono fun _ _ _ h => h.cast (by omega)
  · exact (pushNode hd _ _ _ 1 (by num)).mono fun _ _ _ h => h.cast (by omega)
  · exact (setPure hd _ _ 1 (by num)).mono fun _ _ _ h => h.cast (by omega)
  · exact (setPure hd _ _ 0 (by num)).mono fun _ _ _ h => h.cast (by omega)

theorem documentEnd (hd : d = 0 ∨ d = 1) (ht : ps.state.top = .DocumentEnd) : Fair drive d ps (Parser.documentEnd drive) := by
  refine .looking fun e => ?_
  refine .bind (Q1 := fun b ps' n => ps' = ps ∧ (b = true ∨ n = 1)) (.ite (fun _ => .taking fun _ => .pure ⟨rfl, .inr rfl⟩) fun _ => .pure ⟨rfl, .inl rfl⟩) ?_
  rintro b _ n ⟨rfl, hb⟩
  refine (setPure hd _ _ n ?_).mono fun _ _ _ h => h.cast (by omega)
  cases b
  · have : n = 1 := by simpa using hb
    num
  · num <;> omega

theorem explicitDocumentContent (hd : d = 0 ∨ d = 1) (ht : ps.state.top = .DocumentContent) : Fair drive d ps (Parser.explicitDocumentContent drive) := by
  refine .looking fun e => .ite (fun _ => .setting (.pure ?_)) fun _ => (rootNode hd _ _ (by rw [ht]; rfl)).mono fun _ _ _ h => h.cast (by omega)
  unfold Pays
  have hw : weight d ps.state.top = d := by rw [ht]; rfl
  rcases pop_total d ps with h | ⟨-, h⟩ <;> rw [h] <;> (try unfold total) <;> rcases hd with rfl | rfl <;> simp <;> omega

theorem documentMarker : At drive ps (Parser.documentMarker drive) fun _ ps' n => ps' = ps ∧ n = 1 :=
  .looking fun _ => .ite (fun _ => .taking fun _ => .pure ⟨rfl, rfl⟩) fun _ => .fail

theorem documentStart (hd : d = 0 ∨ d = 1) {fuel : Nat} {implicit first : Bool} (ht : ps.state.top = .DocumentStart implicit first) :
    Fair drive d ps (Parser.documentStart drive fuel implicit first) := by
  have hskip : At drive ps (Parser.skipEndsIf drive fuel implicit) fun _ ps' _ => ps' = ps := .ite (fun _ => .pure rfl) fun _ => skipDocumentEnds _
  refine .bind hskip ?_
  rintro _ _ n rfl
  refine .looking fun e => ?_
  dsimp only
  refine .ite (fun hi => ?_) fun _ => .ite (fun _ => ?_) fun _ => .ite (fun hf => ?_) fun _ => ?_
  · refine .bind (scanDocumentDirectives _) ?_
    rintro ⟨_, _, _⟩ _ m rfl
    refine .setting (.setting (.bind (Q1 := fun _ ps' n => ps' = _ ∧ n = 0) (.setDirectives ⟨rfl, rfl⟩) ?_))
    rintro _ _ _ ⟨rfl, rfl⟩
    refine .pure ?_
    have hi : implicit = true := by
      rw [Bool.and_eq_true] at hi
      exact hi.1
    subst hi
    unfold Pays total below
    simp only [ht, StateMachine.push, StateMachine.setTop, List.map_cons, List.sum_cons, weight, Option.toList_some, List.length_singleton]
    rcases hd with rfl | rfl <;> omega
  · refine .bind (scanDocumentDirectives _) ?_
    rintro ⟨_, _, _⟩ _ m rfl
    refine .bind documentMarker ?_
    rintro _ _ _ ⟨rfl, rfl⟩
    refine .setting (.setting (.bind (Q1 := fun _ ps' n => ps' = _ ∧ n = 0) (.setDirectives ⟨rfl, rfl⟩) ?_))
    rintro _ _ _ ⟨rfl, rfl⟩
    refine .pure ?_
    unfold Pays total below
    simp only [ht, StateMachine.push, StateMachine.setTop, List.map_cons, List.sum_cons, weight, Option.toList_some, List.length_singleton]
    rcases hd with rfl | rfl <;> cases implicit <;> cases first <;> simp only [weight] <;> omega
  · refine .bind (scanDocumentDirectives _) ?_
    rintro ⟨_, _, _⟩ _ m rfl
    refine .setting (.bind (Q1 := fun _ ps' n => ps' = _ ∧ n = 0) (.setDirectives ⟨rfl, rfl⟩) ?_)
    rintro _ _ _ ⟨rfl, rfl⟩
    refine .pure ?_
    subst hf
    unfold Pays total below
    simp only [ht, StateMachine.setTop, weight, Option.toList_some, List.length_singleton]
    rcases hd with rfl | rfl <;> cases implicit <;> simp only [weight] <;> omega
  · refine .setting (.pure ?_)
    unfold Pays total below
    simp only [ht, StateMachine.setTop, weight, Option.toList_none, List.length_nil]
    rcases hd with rfl | rfl <;> cases implicit <;> cases first <;> simp only [weight] <;> omega

theorem streamEnd (hd : d = 0 ∨ d = 1) (hdone : ps.done = false) : Fair drive d ps (Parser.streamEnd drive) := by
  intro p a s' he
  have he : (if ps.done then (pure none : PM σ (Option Event)) else do
    let at_ ← Parser.consumeStreamEnd drive
    SO.modify fun s => { s with parser := { s.parser with done := true } }
    pure (some { start := at_, stop := at_, data := .StreamEnd })) ⟨ps, p⟩ = (.ok a, s') := he
  rw [hdone] at he
  refine At.bind (Q := Pays d ps) consumeStreamEnd ?_ p a s' he
  rintro _ _ _ ⟨rfl, rfl⟩
  intro p a s' he
  cases he
  refine ⟨[], .nil _, ?_⟩
  unfold Pays total below
  simp only [hdone, Option.toList_some, List.length_singleton]
  rcases hd with rfl | rfl <;> simp <;> omega

theorem stateTransition (hd : d = 0 ∨ d = 1) (fuel : Nat) (hdone : ps.done = false) : Fair drive d ps (Parser.stateTransition drive fuel) := by
  intro p a s' he
  refine (?_ : Fair drive d ps (match ps.state.top with
    | .StreamStart => Parser.streamStart drive
    | .DocumentStart implicit first => Parser.documentStart drive fuel implicit first
    | .DocumentContent => Parser.explicitDocumentContent drive
    | .DocumentEnd => Parser.documentEnd drive
    | .BlockNode => Parser.node drive true .Root
    | .FlowNode => Parser.node drive false .Root
    | .BlockSequenceEntry first => Parser.blockSequenceEntry drive first
    | .BlockMappingKey first => Parser.blockMappingKey drive first
    | .BlockMappingValue => Parser.blockMappingValue drive
    | .FlowSequenceEntry first => Parser.flowSequenceEntry drive first
    | .FlowSequenceMappingKey => Parser.flowSequenceEntryMappingKey drive
    | .FlowSequenceMappingValue => Parser.flowSequenceEntryMappingValue drive
    | .FlowSequenceMappingEnd => Parser.flowSequenceEntryMappingEnd drive
    | .FlowMappingKey first => Parser.flowMappingKey drive first
    | .FlowMappingValue empty => Parser.flowMappingValue drive empty
    | .StreamEnd => Parser.streamEnd drive)) p a s' he
  split
  · exact streamStart hd ‹_›
  · exact documentStart hd ‹_›
  · exact explicitDocumentContent hd ‹_›
  · exact documentEnd hd ‹_›
  · exact rootNode hd _ _ (by simp [*, weight])
  · exact rootNode hd _ _ (by simp [*, weight])
  · exact blockSequenceEntry hd ‹_›
  · exact blockMappingKey hd ‹_›
  · exact blockMappingValue hd ‹_›
  · exact flowSequenceEntry hd ‹_›
  · exact flowSequenceEntryMappingKey hd ‹_›
  · exact flowSequenceEntryMappingValue hd ‹_›
  · exact flowSequenceEntryMappingEnd hd ‹_›
  · exact flowMappingKey hd ‹_›
  · exact flowMappingValue hd ‹_›
  · exact streamEnd hd hdone

theorem nextEventLoop (hd : d = 0 ∨ d = 1) (fuel : Nat) : ∀ n (ps : Parser), Fair drive d ps (Parser.nextEventLoop drive fuel n) := by
  intro n
  induction n with
  | zero => intro ps; exact .diverge
  | succ n ih =>
    intro ps p a s' he
    have he : (if ps.done then (pure none : PM σ (Option Event)) else do
      match ← Parser.stateTransition drive fuel with
      | some ev => pure (some ev)
      | none => Parser.nextEventLoop drive fuel n) ⟨ps, p⟩ = (.ok a, s') := he
    refine At.ite (Q := Pays d ps) (fun _ => .pure ?_) (fun hn => ?_) p a s' he
    · unfold Pays; simp
    · refine .bind (stateTransition hd fuel (by simpa using hn)) fun r ps1 k hp => ?_
      cases r with
      | some ev => exact .pure hp
      | none =>
        refine (ih ps1).mono fun r ps2 m h => ?_
        unfold Pays at *
        simp only [Option.toList_none, List.length_nil] at hp
        rcases hd with rfl | rfl <;> push_cast <;> omega

/-- A run of events has taken tokens for them. -/
theorem yields (hd : d = 0 ∨ d = 1) {s s' : PS σ} {es : List Event} (h : Yields drive s es s') :
    ∃ ts, Pops drive s.tokens ts s'.tokens ∧ total d s'.parser + es.length ≤ total d s.parser + (2 + d) * ts.length := by
  induction h with
  | nil s => exact ⟨[], .nil _, by simp⟩
  | cons fuel h t ih =>
    obtain ⟨ts, h1, h2⟩ := nextEventLoop hd fuel fuel _ _ _ _ h
    obtain ⟨us, h3, h4⟩ := ih
    refine ⟨ts ++ us, h1.append h3, ?_⟩
    unfold Pays at h2
    simp only [Option.toList_some, List.length_singleton] at h2
    rw [List.length_append, List.length_cons]
    rcases hd with rfl | rfl <;> push_cast at * <;> omega

theorem weight_nonneg (st : State) : 0 ≤ weight 1 st := by
  unfold weight; split <;> decide

theorem total_nonneg (ps : Parser) : 0 ≤ total 1 ps := by
  unfold total below
  have h1 := weight_nonneg ps.state.top
  have h2 : 0 ≤ (ps.state.stack.map (weight 1)).sum := by
    induction ps.state.stack with
    | nil => simp
    | cons q qs ih => have := weight_nonneg q; simp only [List.map_cons, List.sum_cons]; omega
  split <;> omega

/-- Events need tokens. -/
theorem yields_le {src : σ} {s : PS σ} {es : List Event} (h : Yields drive (start src) es s) :
    ∃ ts, Pops drive (start src).tokens ts s.tokens ∧ es.length ≤ 3 * ts.length + 1 := by
  obtain ⟨ts, h1, h2⟩ := yields (d := 1) (.inr rfl) h
  refine ⟨ts, h1, ?_⟩
  have h3 := total_nonneg s.parser
  have h4 : total 1 (start src).parser = 1 := rfl
  omega

theorem next_top {p p' : Parser} {ev : Option Event} (h : Next p ev p') (hp : p.done = true → p.state.top = .StreamEnd) :
    p'.done = true → p'.state.top = .StreamEnd := by
  induction h with
  | done h => exact hp
  | @some p p' e h t =>
    intro hd
    have := t.step
    rw [hd] at this
    generalize p'.state = m', p.state = m, (Option.map (fun e : Event => KEv.of e.data) (some e)) = k at this
    generalize hb : true = b at this
    cases this <;> first | rfl | (cases hb; done)
  | @skip p p' p'' ev h t n ih =>
    have := step_none_done t.step
    exact ih (by rw [this]; intro h; cases h)

theorem yields_top {s s' : PS σ} {es : List Event} (h : Yields drive s es s') (hp : s.parser.done = true → s.parser.state.top = .StreamEnd) :
    s'.parser.done = true → s'.parser.state.top = .StreamEnd := by
  induction h with
  | nil => exact hp
  | cons fuel h t ih => exact ih (next_top (Parser.nextEvent_next h) hp)

/-- All the events of a stream need tokens. -/
theorem finished_le {src : σ} {s : PS σ} {es : List Event} (h : Yields drive (start src) es s) (hf : Finished drive s) :
    ∃ ts, Pops drive (start src).tokens ts s.tokens ∧ es.length ≤ 2 * ts.length := by
  obtain ⟨ts, h1, h2⟩ := yields (d := 0) (.inl rfl) h
  refine ⟨ts, h1, ?_⟩
  have hd := finished_done hf
  have ht := yields_top h (by intro h; cases h) hd
  have hg := (yields_chunks h (Parser.new_first src)).1.good
  rw [ht] at hg
  have h4 : total 0 (start src).parser = 0 := rfl
  have h5 : total 0 s.parser = 0 := by
    unfold total below
    cases hs : s.parser.state.stack with
    | nil => rw [ht, hd]; rfl
    | cons q qs => rw [hs] at hg; exact absurd hg.1 (by simp [inDoc])
  omega

/-- Tokens taken are tokens handed out by calls that all succeed. -/
theorem pops_ops {p q : PeekReader σ} {ts : List TokenEntry} (h : Pops drive p ts q) :
    ∃ ops, (∀ x ∈ (runOps drive ops p).1, ∃ r, x.2 = .ok r) ∧ handed (runOps drive ops p).1 = ts ∧ (runOps drive ops p).2 = q := by
  induction h with
  | nil p => exact ⟨[], by simp [runOps], rfl, rfl⟩
  | @peek p q p' r ts h t ih =>
    obtain ⟨ops, h1, h2, h3⟩ := ih
    refine ⟨.peek :: ops, ?_, ?_, ?_⟩ <;> simp only [runOps, ROp.run, h]
    · intro x hx
      rcases List.mem_cons.1 hx with rfl | hx
      · exact ⟨_, rfl⟩
      · exact h1 x hx
    · exact h2
    · exact h3
  | @pop p q p' e ts h t ih =>
    obtain ⟨ops, h1, h2, h3⟩ := ih
    refine ⟨.pop :: ops, ?_, ?_, ?_⟩ <;> simp only [runOps, ROp.run, h]
    · intro x hx
      rcases List.mem_cons.1 hx with rfl | hx
      · exact ⟨_, rfl⟩
      · exact h1 x hx
    · show e :: handed _ = _
      rw [h2]
    · exact h3

end Count

end Yary
