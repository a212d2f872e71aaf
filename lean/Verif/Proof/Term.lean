import Verif.Proof.Safe
import Verif.Proof.Queue

/-! Every call of `next_event` terminates over a source with finitely many tokens. -/

namespace Yary

open Spec PM

variable {σ : Type} {drive : Drive σ} {α β : Type}

/-- `m` never runs out of fuel. -/
structure NoDiv (m : PM σ α) : Prop where
  out : ∀ s, (m s).1 ≠ .diverge

theorem noDiv_bind {x : PM σ α} {f : α → PM σ β} (hx : NoDiv x) (hf : ∀ a, NoDiv (f a)) :
    NoDiv (x >>= f) := by
  refine ⟨fun s => ?_⟩
  have h1 := hx.out s
  simp only [bind, SO.bind]
  cases h : x s with
  | mk o s' =>
    rw [h] at h1
    cases o with
    | ok a => exact (hf a).out s'
    | diverge => exact absurd rfl h1
    | _ => simp

theorem noDiv_pure {a : α} : NoDiv (pure a : PM σ α) := ⟨by simp [pure, SO.pure]⟩
theorem noDiv_fail {e : ParseError} : NoDiv (SO.fail e : PM σ α) := ⟨by simp [SO.fail]⟩
theorem noDiv_panic : NoDiv (SO.panic : PM σ α) := ⟨by simp [SO.panic]⟩
theorem noDiv_get : NoDiv (SO.get : PM σ (PS σ)) := ⟨by simp [SO.get]⟩
theorem noDiv_onState {f : StateMachine → StateMachine} : NoDiv (onState f : PM σ Unit) :=
  ⟨by simp [onState, SO.modify]⟩
theorem noDiv_setTop {st : State} : NoDiv (setTop st : PM σ Unit) := noDiv_onState
theorem noDiv_pushState {st : State} : NoDiv (pushState st : PM σ Unit) := noDiv_onState
theorem noDiv_popState : NoDiv (popState : PM σ Unit) := noDiv_onState
theorem noDiv_modify {f : PS σ → PS σ} : NoDiv (SO.modify f : PM σ Unit) :=
  ⟨by simp [SO.modify]⟩
theorem noDiv_setDirectives {d : Directives} : NoDiv (Parser.setDirectives d : PM σ Unit) :=
  noDiv_modify
theorem noDiv_lift {x : Out ParseError α} (h : x ≠ .diverge) : NoDiv (SO.lift x : PM σ α) :=
  ⟨fun _ => by simpa [SO.lift] using h⟩

/-- The source itself always finishes. -/
def SrcTerm (drive : Drive σ) : Prop := ∀ st, (drive st).1 ≠ .diverge

theorem takeNext_noDiv (hs : SrcTerm drive) (p : PeekReader σ) :
    (p.takeNext drive).1 ≠ .diverge := by
  unfold PeekReader.takeNext
  split
  · simp
  · by_cases hq : p.reader.queue.isEmpty
    · simp only [hq, if_true]
      have h1 : (p.reader.scanTokens drive).1 ≠ .diverge := by
        unfold Reader.scanTokens
        have := hs p.reader.src
        split
        · simp
        · next h => rw [h] at this; simpa using this
      cases h : (p.reader.scanTokens drive).1 with
      | ok => simp
      | err => simp
      | panic => simp
      | diverge => exact absurd h h1
    · simp [hq]

theorem peekReader_peek_noDiv (hs : SrcTerm drive) (p : PeekReader σ) :
    (p.peek drive).1 ≠ .diverge := by
  unfold PeekReader.peek
  split
  · simp
  · split
    · have := takeNext_noDiv hs p
      split
      · simp
      · simp
      · simp
      · next h => rw [h] at this; exact absurd rfl this
    · simp

theorem peekReader_pop_noDiv (hs : SrcTerm drive) (p : PeekReader σ) :
    (p.pop drive).1 ≠ .diverge := by
  unfold PeekReader.pop
  split
  · simp
  · split
    · have := takeNext_noDiv hs p
      split
      · simp
      · simp
      · simp
      · next h => rw [h] at this; exact absurd rfl this
    · simp

theorem noDiv_onTokens {f : PeekReader σ → Out ReaderError α × PeekReader σ}
    (h : ∀ p, (f p).1 ≠ .diverge) : NoDiv (onTokens f) := by
  refine ⟨fun s => ?_⟩
  have := h s.tokens
  unfold onTokens
  split <;> simp
  next h => rw [h] at this; exact absurd rfl this

theorem noDiv_peekMaybe (hs : SrcTerm drive) : NoDiv (peekMaybe drive) :=
  noDiv_onTokens (peekReader_peek_noDiv hs)

theorem noDiv_peek (hs : SrcTerm drive) : NoDiv (peek drive) := by
  refine noDiv_bind (noDiv_peekMaybe hs) fun e => ?_
  split
  · exact noDiv_pure
  · exact noDiv_fail

theorem noDiv_pop (hs : SrcTerm drive) : NoDiv (pop drive) := by
  refine noDiv_bind (noDiv_onTokens (peekReader_pop_noDiv hs)) fun e => ?_
  split
  · exact noDiv_pure
  · exact noDiv_fail

/-- Walk through a handler. -/
macro "nodiv" hs:ident : tactic => `(tactic| repeat' with_reducible first
  | exact noDiv_pure | exact noDiv_fail | exact noDiv_panic | exact noDiv_get
  | exact noDiv_peekMaybe $hs | exact noDiv_peek $hs | exact noDiv_pop $hs
  | exact noDiv_popState | exact noDiv_setTop | exact noDiv_pushState
  | exact noDiv_setDirectives | exact noDiv_modify
  | solve_by_elim | apply noDiv_bind | intro _ | split)

namespace Parser

theorem validateEventTag_noDiv {tags : TagMap} {e : Event} :
    validateEventTag tags e ≠ .diverge := by
  have hv : ∀ t b, validateTag tags t b ≠ .diverge := by
    intro t b
    unfold validateTag
    split
    · simp
    · dsimp only
      split
      · simp
      · split <;> simp
  unfold validateEventTag
  split <;> simp [Out.bind_eq_diverge, hv]

theorem noDiv_fetchAnchor (hs : SrcTerm drive) {n : Nat} : NoDiv (fetchAnchor drive n) := by
  unfold fetchAnchor consumeAnchor; nodiv hs

theorem noDiv_fetchTag (hs : SrcTerm drive) {n : Nat} : NoDiv (fetchTag drive n) := by
  unfold fetchTag consumeTag; nodiv hs

theorem noDiv_node (hs : SrcTerm drive) {block : Bool} {k : NodeKind} :
    NoDiv (node drive block k) := by
  unfold node
  refine noDiv_bind ?_ fun ev => noDiv_bind noDiv_get fun s =>
    noDiv_bind (noDiv_lift validateEventTag_noDiv) fun _ => noDiv_pure
  unfold nodeEvent
  refine noDiv_bind (noDiv_peek hs) fun e => ?_
  split
  · unfold consumeAlias; nodiv hs
  · refine noDiv_bind ?_ fun r => ?_
    · unfold nodeProperties
      split
      · exact noDiv_bind (noDiv_fetchAnchor hs) fun _ => noDiv_bind (noDiv_fetchTag hs)
          fun _ => noDiv_pure
      · exact noDiv_bind (noDiv_fetchTag hs) fun _ => noDiv_bind (noDiv_fetchAnchor hs)
          fun _ => noDiv_pure
      · exact noDiv_pure
    · unfold nodeContent consumeScalar; nodiv hs

theorem noDiv_handlers (hs : SrcTerm drive) :
    NoDiv (streamStart drive) ∧ NoDiv (streamEnd drive) ∧ NoDiv (explicitDocumentContent drive) ∧
    NoDiv (documentEnd drive) ∧ (∀ b, NoDiv (blockSequenceEntry drive b)) ∧
    (∀ b, NoDiv (blockMappingKey drive b)) ∧ NoDiv (blockMappingValue drive) ∧
    (∀ b, NoDiv (flowSequenceEntry drive b)) ∧ NoDiv (flowSequenceEntryMappingKey drive) ∧
    NoDiv (flowSequenceEntryMappingValue drive) ∧ NoDiv (flowSequenceEntryMappingEnd drive) ∧
    (∀ b, NoDiv (flowMappingKey drive b)) ∧ (∀ b, NoDiv (flowMappingValue drive b)) := by
  have hn := fun {b k} => noDiv_node hs (block := b) (k := k)
  refine ⟨?_, ?_, ?_, ?_, ?_, ?_, ?_, ?_, ?_, ?_, ?_, ?_, ?_⟩
  · unfold streamStart consumeStreamStart; nodiv hs
  · unfold streamEnd consumeStreamEnd; nodiv hs
  · unfold explicitDocumentContent; nodiv hs
  · unfold documentEnd implicitEnd; nodiv hs
  · unfold blockSequenceEntry popFirst; nodiv hs
  · unfold blockMappingKey peekPopFirst; nodiv hs
  · unfold blockMappingValue; nodiv hs
  · unfold flowSequenceEntry popFirst popFlowEntry fetchSequenceEnd; nodiv hs
  · unfold flowSequenceEntryMappingKey; nodiv hs
  · unfold flowSequenceEntryMappingValue flowPairHasValue; nodiv hs
  · unfold flowSequenceEntryMappingEnd; nodiv hs
  · unfold flowMappingKey popFirst popFlowEntry fetchMappingEnd; nodiv hs
  · unfold flowMappingValue; nodiv hs

end Parser

/-- `μ` bounds the number of tokens the source can still deliver. -/
def Bounded (drive : Drive σ) (μ : σ → Nat) : Prop :=
  ∀ st, (drive st).2.1.length + μ (drive st).2.2 ≤ μ st

/-- Tokens that can still be popped. -/
def PeekReader.left (μ : σ → Nat) (p : PeekReader σ) : Nat :=
  μ p.reader.src + p.reader.queue.len + p.peeked.toList.length

theorem foldl_push_len {γ : Type} (l : List γ) (q : Queue γ) :
    (l.foldl Queue.push q).len = q.len + l.length := by
  induction l generalizing q with
  | nil => rfl
  | cons x l ih => simp only [List.foldl_cons, ih, List.length_cons]; simp [Queue.push, Queue.len]; omega

theorem queue_pop_len {γ : Type} [Ord γ] (q : Queue γ) :
    (q.pop.2).len + q.pop.1.toList.length = q.len := by
  have key : ∀ h : List (QueueEntry γ), ∀ e rest, Queue.popLeast h = some (e, rest) →
      rest.length + 1 = h.length := by
    intro h
    induction h with
    | nil => simp [Queue.popLeast]
    | cons a h ih =>
      intro e rest hp
      unfold Queue.popLeast at hp
      split at hp
      · next hn =>
        simp only [Option.some.injEq, Prod.mk.injEq] at hp
        obtain ⟨rfl, rfl⟩ := hp
        cases h with
        | nil => rfl
        | cons b h =>
          exfalso
          unfold Queue.popLeast at hn
          split at hn
          · simp at hn
          · split at hn <;> simp at hn
      · next m r hm =>
        have := ih _ _ hm
        split at hp <;> (simp only [Option.some.injEq, Prod.mk.injEq] at hp; obtain ⟨rfl, rfl⟩ := hp; simp; omega)
  unfold Queue.pop
  split
  · next e rest h => simpa [Queue.len] using key _ _ _ h
  · simp

variable {μ : σ → Nat}

theorem takeNext_left (hb : Bounded drive μ) (p : PeekReader σ) :
    (p.takeNext drive).2.left μ ≤ p.left μ := by
  unfold PeekReader.takeNext
  split
  · exact Nat.le_refl _
  · next hp =>
    have hp : p.peeked = none := by simpa using hp
    have hr : ∀ r : Reader σ, μ r.src + r.queue.len ≤ μ p.reader.src + p.reader.queue.len →
        ∀ o : Out ReaderError Unit,
        (match o with
          | .ok () => ((.ok (), { peeked := r.queue.pop.1, reader := { r with queue := r.queue.pop.2 } }) :
              Out ReaderError Unit × PeekReader σ)
          | out => (out, { p with reader := r })).2.left μ ≤ p.left μ := by
      intro r h o
      have := queue_pop_len r.queue
      cases o <;> simp [PeekReader.left, hp] <;> omega
    dsimp only
    by_cases hq : p.reader.queue.isEmpty
    · simp only [hq, if_true]
      refine hr _ ?_ _
      unfold Reader.scanTokens
      have h1 := hb p.reader.src
      dsimp only
      split <;> rename_i h <;> rw [h] at h1 <;> simp [foldl_push_len] at * <;> omega
    · rw [if_neg hq]
      exact hr p.reader (Nat.le_refl _) (.ok ())

theorem peek_left (hb : Bounded drive μ) (p : PeekReader σ) :
    (p.peek drive).2.left μ ≤ p.left μ := by
  have h := takeNext_left hb p
  unfold PeekReader.peek
  split
  · exact Nat.le_refl _
  · split
    · split <;> rename_i ht <;> rw [ht] at h <;> exact h
    · exact Nat.le_refl _

theorem pop_left (hb : Bounded drive μ) {p p' : PeekReader σ} {e : TokenEntry}
    (hp : p.pop drive = (.ok (some e), p')) : p'.left μ + 1 ≤ p.left μ := by
  have h := takeNext_left hb p
  unfold PeekReader.pop at hp
  split at hp
  · next h' =>
    simp only [Prod.mk.injEq, Out.ok.injEq, Option.some.injEq] at hp
    obtain ⟨rfl, rfl⟩ := hp
    simp [PeekReader.left, h']
  · split at hp
    · split at hp
      · next q ht =>
        rw [ht] at h
        simp only [Prod.mk.injEq, Out.ok.injEq] at hp
        obtain ⟨h1, rfl⟩ := hp
        simp [PeekReader.left, h1] at h ⊢
        omega
      · simp at hp
      · simp at hp
      · simp at hp
    · simp at hp

theorem pm_peek_left (hb : Bounded drive μ) (s : PS σ) :
    (PM.peek drive s).2.tokens.left μ ≤ s.tokens.left μ := by
  have := peek_left hb s.tokens
  unfold PM.peek peekMaybe onTokens
  simp only [bind, SO.bind]
  cases hp : s.tokens.peek drive with
  | mk o t =>
    rw [hp] at this
    cases o with
    | ok r => cases r <;> simpa [pure, SO.pure, SO.fail] using this
    | _ => exact this

theorem pm_pop_left (hb : Bounded drive μ) {s s' : PS σ} {e : TokenEntry}
    (h : PM.pop drive s = (.ok e, s')) : s'.tokens.left μ + 1 ≤ s.tokens.left μ := by
  unfold PM.pop onTokens at h
  simp only [bind, SO.bind] at h
  cases hp : s.tokens.pop drive with
  | mk o t =>
    rw [hp] at h
    cases o with
    | ok r =>
      cases r with
      | none => simp [SO.fail] at h
      | some r =>
        simp only [pure, SO.pure, Prod.mk.injEq, Out.ok.injEq] at h
        obtain ⟨rfl, rfl⟩ := h
        exact pop_left hb hp
    | _ => simp at h

/-- `m` does not diverge from `s`, and `Q` holds if it returns. -/
def nd (m : PM σ α) (s : PS σ) (Q : α → PS σ → Prop) : Prop :=
  match m s with
  | (.ok a, s') => Q a s'
  | (.diverge, _) => False
  | _ => True

theorem nd_bind {x : PM σ α} {f : α → PM σ β} {s : PS σ} {Q : β → PS σ → Prop}
    (h : nd x s fun a s' => nd (f a) s' Q) : nd (x >>= f) s Q := by
  unfold nd at *
  simp only [bind, SO.bind]
  cases hx : x s with
  | mk o s' =>
    rw [hx] at h
    cases o <;> simp_all

theorem nd_of_noDiv {x : PM σ α} (h : NoDiv x) {s : PS σ} {Q : α → PS σ → Prop}
    (hq : ∀ a s', x s = (.ok a, s') → Q a s') : nd x s Q := by
  have := h.out s
  unfold nd
  cases hx : x s with
  | mk o s' =>
    rw [hx] at this
    cases o <;> simp_all

theorem nd_peek (hs : SrcTerm drive) (hb : Bounded drive μ) {s : PS σ}
    {Q : TokenEntry → PS σ → Prop}
    (h : ∀ e s', s'.tokens.left μ ≤ s.tokens.left μ → Q e s') : nd (peek drive) s Q := by
  refine nd_of_noDiv (noDiv_peek hs) fun e s' he => h e s' ?_
  have := pm_peek_left hb s
  rwa [he] at this

theorem nd_pop (hs : SrcTerm drive) (hb : Bounded drive μ) {s : PS σ}
    {Q : TokenEntry → PS σ → Prop}
    (h : ∀ e s', s'.tokens.left μ + 1 ≤ s.tokens.left μ → Q e s') : nd (pop drive) s Q :=
  nd_of_noDiv (noDiv_pop hs) fun e s' he => h e s' (pm_pop_left hb he)

namespace Parser

theorem nd_skipDocumentEnds (hs : SrcTerm drive) (hb : Bounded drive μ) {fuel : Nat} {s : PS σ}
    (hf : s.tokens.left μ < fuel) {Q : Unit → PS σ → Prop}
    (h : ∀ s', s'.tokens.left μ ≤ s.tokens.left μ → Q () s') :
    nd (skipDocumentEnds drive fuel) s Q := by
  induction fuel generalizing s with
  | zero => omega
  | succ n ih =>
    unfold skipDocumentEnds
    refine nd_bind (nd_peek hs hb fun e s1 h1 => ?_)
    split
    · refine nd_bind (nd_pop hs hb fun e s2 h2 => ?_)
      exact ih (by omega) fun s' h' => h s' (by omega)
    · exact h s1 h1

theorem nd_scanDirectivesLoop (hs : SrcTerm drive) (hb : Bounded drive μ) {fuel : Nat} {s : PS σ}
    (hf : s.tokens.left μ < fuel) {n : Nat} {b : Bool} {d : Directives} :
    nd (scanDirectivesLoop drive fuel n b d) s fun _ _ => True := by
  induction fuel generalizing s n b d with
  | zero => omega
  | succ f ih =>
    unfold scanDirectivesLoop
    refine nd_bind (nd_peek hs hb fun e s1 h1 => ?_)
    split
    · split
      · unfold consumeVersion
        refine nd_bind (nd_bind (nd_pop hs hb fun e s2 h2 => ?_))
        split
        · exact ih (by omega)
        · trivial
      · trivial
    · unfold consumeTagDirective
      refine nd_bind (nd_bind (nd_pop hs hb fun e s2 h2 => ?_))
      split
      · show nd (if _ then _ else _) _ _
        split
        · trivial
        · exact ih (by omega)
      · trivial
    · trivial

theorem nd_scanDocumentDirectives (hs : SrcTerm drive) (hb : Bounded drive μ) {fuel : Nat}
    {s : PS σ} (hf : s.tokens.left μ < fuel) :
    nd (scanDocumentDirectives drive fuel) s fun _ _ => True := by
  unfold scanDocumentDirectives
  refine nd_bind (nd_peek hs hb fun e s1 h1 => ?_)
  refine nd_bind ?_
  have := nd_scanDirectivesLoop hs hb (fuel := fuel) (s := s1) (by omega) (n := e.readAt)
    (b := false) (d := Directives.default)
  unfold nd at *
  split at this <;> simp_all [pure, SO.pure]

theorem nd_documentStart (hs : SrcTerm drive) (hb : Bounded drive μ) {fuel : Nat} {s : PS σ}
    (hf : s.tokens.left μ < fuel) {i f : Bool} :
    nd (documentStart drive fuel i f) s fun _ _ => True := by
  have fin : ∀ {α β : Type} {x : PM σ α} {f : α → PM σ β} {s : PS σ},
      nd x s (fun _ _ => True) → (∀ a, NoDiv (f a)) → nd (x >>= f) s fun _ _ => True := by
    intro α β x f s hx hf
    refine nd_bind ?_
    have hc : ∀ a s', nd (f a) s' fun _ _ => True := fun a s' =>
      nd_of_noDiv (hf a) fun _ _ _ => trivial
    unfold nd at hx
    show match x s with
      | (.ok a, s') => nd (f a) s' fun _ _ => True
      | (.diverge, _) => False
      | _ => True
    cases hxs : x s with
    | mk o s' =>
      rw [hxs] at hx
      cases o with
      | ok a => exact hc a s'
      | diverge => exact hx
      | _ => trivial
  unfold documentStart
  refine nd_bind ?_
  have key : ∀ s1 : PS σ, s1.tokens.left μ ≤ s.tokens.left μ → nd (do
      let e ← peek drive
      let markers := e.marker = .TagDirective || e.marker = .VersionDirective ||
        e.marker = .DocumentStart || e.marker = .StreamEnd
      if i && !markers then do
        let (start, stop, d) ← scanDocumentDirectives drive fuel
        pushState .DocumentEnd
        setTop .BlockNode
        setDirectives d
        pure (some { start, stop, data := .DocumentStart d true : Event })
      else if e.marker ≠ .StreamEnd then do
        let (start, _, d) ← scanDocumentDirectives drive fuel
        let stop ← documentMarker drive
        pushState .DocumentEnd
        setTop .DocumentContent
        setDirectives d
        pure (some { start, stop, data := .DocumentStart d false })
      else if f then do
        let (start, stop, d) ← scanDocumentDirectives drive fuel
        setTop .DocumentEnd
        setDirectives d
        pure (some { start, stop, data := .DocumentStart d true })
      else do
        setTop .StreamEnd
        pure none) s1 fun _ _ => True := by
    intro s1 h1
    refine nd_bind (nd_peek hs hb fun e s2 h2 => ?_)
    have hd := nd_scanDocumentDirectives hs hb (fuel := fuel) (s := s2) (by omega)
    dsimp only
    split
    · exact fin hd fun _ => by nodiv hs
    · split
      · refine fin hd fun _ => ?_
        unfold documentMarker
        nodiv hs
      · split
        · exact fin hd fun _ => by nodiv hs
        · exact nd_of_noDiv (by nodiv hs) fun _ _ _ => trivial
  unfold skipEndsIf
  split
  · exact key s (Nat.le_refl _)
  · exact nd_skipDocumentEnds hs hb hf fun s1 h1 => key s1 h1

theorem stateTransition_noDiv (hs : SrcTerm drive) (hb : Bounded drive μ) {fuel : Nat} {s : PS σ}
    (hf : s.tokens.left μ < fuel) : (stateTransition drive fuel s).1 ≠ .diverge := by
  obtain ⟨h1, h2, h3, h4, h5, h6, h7, h8, h9, h10, h11, h12, h13⟩ := noDiv_handlers hs
  have hn := fun {b k} => noDiv_node hs (block := b) (k := k)
  unfold stateTransition
  simp only [bind, SO.bind, SO.get]
  cases ht : s.parser.state.top with
  | StreamStart => exact h1.out _
  | DocumentStart i f =>
    have := nd_documentStart hs hb hf (i := i) (f := f)
    unfold nd at this
    dsimp only
    intro hd
    cases hx : documentStart drive fuel i f s with
    | mk o s' =>
      rw [hx] at this hd
      cases o with
      | diverge => exact this
      | _ => simp at hd
  | DocumentContent => exact h3.out _
  | DocumentEnd => exact h4.out _
  | BlockNode => exact hn.out _
  | FlowNode => exact hn.out _
  | BlockSequenceEntry f => exact (h5 f).out _
  | BlockMappingKey f => exact (h6 f).out _
  | BlockMappingValue => exact h7.out _
  | FlowSequenceEntry f => exact (h8 f).out _
  | FlowSequenceMappingKey => exact h9.out _
  | FlowSequenceMappingValue => exact h10.out _
  | FlowSequenceMappingEnd => exact h11.out _
  | FlowMappingKey f => exact (h12 f).out _
  | FlowMappingValue f => exact (h13 f).out _
  | StreamEnd => exact h2.out _

/-- Only `document_start` has loops. -/
theorem stateTransition_noDiv_of_top (hs : SrcTerm drive) {fuel : Nat} {s : PS σ}
    (ht : ∀ i f, s.parser.state.top ≠ .DocumentStart i f) :
    (stateTransition drive fuel s).1 ≠ .diverge := by
  obtain ⟨h1, h2, h3, h4, h5, h6, h7, h8, h9, h10, h11, h12, h13⟩ := noDiv_handlers hs
  have hn := fun {b k} => noDiv_node hs (block := b) (k := k)
  unfold stateTransition
  simp only [bind, SO.bind, SO.get]
  cases htop : s.parser.state.top with
  | StreamStart => exact h1.out _
  | DocumentStart i f => exact absurd htop (ht i f)
  | DocumentContent => exact h3.out _
  | DocumentEnd => exact h4.out _
  | BlockNode => exact hn.out _
  | FlowNode => exact hn.out _
  | BlockSequenceEntry f => exact (h5 f).out _
  | BlockMappingKey f => exact (h6 f).out _
  | BlockMappingValue => exact h7.out _
  | FlowSequenceEntry f => exact (h8 f).out _
  | FlowSequenceMappingKey => exact h9.out _
  | FlowSequenceMappingValue => exact h10.out _
  | FlowSequenceMappingEnd => exact h11.out _
  | FlowMappingKey f => exact (h12 f).out _
  | FlowMappingValue f => exact (h13 f).out _
  | StreamEnd => exact h2.out _

/-- A transition without an event leads to the end of the stream, or to a state whose transition
has one. -/
theorem stateTransition_none {fuel : Nat} {s s' : PS σ} (hm : Mid s.parser)
    (h : stateTransition drive fuel s = (.ok none, s')) :
    AtEnd s' ∨ (Mid s'.parser ∧ stackable s'.parser.state.top = true) := by
  have ht : Trans s.parser none s'.parser :=
    wp_ok (Q := fun ev s' => Trans s.parser ev s'.parser)
      (stateTransition_spec (fun _ => trivial) hm.2.2.1) h
  have hp := stateTransition_post (drive := drive) (fuel := fuel) hm
  rw [h] at hp
  rcases hp with hp | hp
  · right
    refine ⟨hp, ?_⟩
    have hstep := ht.step
    generalize hms : s.parser.state = m at hstep
    generalize hms' : s'.parser.state = m' at hstep
    generalize hd : s'.parser.done = d at hstep
    cases hstep with
    | docNone => exact absurd (by rw [hms']) hp.1
    | @contentEmpty ss =>
      have h1 := hm.2.2.2 (by rw [hms])
      have h2 := hm.2.1
      rw [hms] at h1 h2
      cases ss with
      | nil => simp at h1
      | cons q qs => exact h2 q (by simp)
  · exact .inl hp.1

theorem stateTransition_stackable {fuel : Nat} {s s' : PS σ} (hm : Mid s.parser)
    (hst : stackable s.parser.state.top = true) :
    stateTransition drive fuel s ≠ (.ok none, s') := by
  intro h
  have ht : Trans s.parser none s'.parser :=
    wp_ok (Q := fun ev s' => Trans s.parser ev s'.parser)
      (stateTransition_spec (fun _ => trivial) hm.2.2.1) h
  have hstep := ht.step
  generalize hms : s.parser.state = m at hstep hst
  generalize hms' : s'.parser.state = m' at hstep
  generalize hd : s'.parser.done = d at hstep
  cases hstep <;> simp [stackable] at hst

/-- One transition from a state that has an event is a whole call. -/
theorem nextEventLoop_one {fuel n : Nat} {s : PS σ} (hs : s.parser.done = false)
    (h : ∀ s', stateTransition drive fuel s ≠ (.ok none, s')) :
    nextEventLoop drive fuel (n + 1) s = stateTransition drive fuel s := by
  rw [nextEventLoop_succ hs]
  cases ht : stateTransition drive fuel s with
  | mk o s' =>
    cases o with
    | ok r =>
      cases r with
      | some e => rfl
      | none => exact absurd ht (h s')
    | _ => rfl

/-- Two transitions suffice for any call. -/
theorem nextEventLoop_two {fuel n : Nat} {s : PS σ} (hs : Inv s) :
    nextEventLoop drive fuel (n + 2) s = nextEventLoop drive fuel 2 s := by
  rcases hs with hm | hd
  · rw [nextEventLoop_succ hm.2.2.1, nextEventLoop_succ hm.2.2.1]
    cases ht : stateTransition drive fuel s with
    | mk o s' =>
      cases o with
      | ok r =>
        cases r with
        | some e => rfl
        | none =>
          show nextEventLoop drive fuel (n + 1) s' = nextEventLoop drive fuel (0 + 1) s'
          rcases stateTransition_none hm ht with he | ⟨hm', hst⟩
          · obtain ⟨e, s2, h2, _⟩ := streamEnd_atEnd (drive := drive) he
            have : ∀ s3, stateTransition drive fuel s' ≠ (.ok none, s3) := by
              rw [stateTransition_atEnd he, h2]
              simp
            rw [nextEventLoop_one he.2.2.1 this, nextEventLoop_one he.2.2.1 this]
          · have : ∀ s3, stateTransition drive fuel s' ≠ (.ok none, s3) :=
              fun s3 => stateTransition_stackable hm' hst
            rw [nextEventLoop_one hm'.2.2.1 this, nextEventLoop_one hm'.2.2.1 this]
      | _ => rfl
  · simp [nextEventLoop, bind, SO.bind, SO.get, hd, pure, SO.pure]

/-- Enough fuel for the tokens left is enough fuel for the call. -/
theorem nextEvent_noDiv (hs : SrcTerm drive) (hb : Bounded drive μ) {fuel : Nat} {s : PS σ}
    (hi : Inv s) (hf : s.tokens.left μ + 2 ≤ fuel) :
    (nextEvent drive fuel s).1 ≠ .diverge := by
  obtain ⟨n, rfl⟩ : ∃ n, fuel = n + 2 := ⟨fuel - 2, by omega⟩
  unfold nextEvent
  rw [nextEventLoop_two hi]
  rcases hi with hm | hd
  · have h1 := stateTransition_noDiv hs hb (fuel := n + 2) (s := s) (by omega)
    rw [nextEventLoop_succ hm.2.2.1]
    cases ht : stateTransition drive (n + 2) s with
    | mk o s' =>
      rw [ht] at h1
      cases o with
      | ok r =>
        cases r with
        | some e => simp
        | none =>
          show (nextEventLoop drive (n + 2) (0 + 1) s').1 ≠ _
          rcases stateTransition_none hm ht with he | ⟨hm', hst⟩
          · obtain ⟨e, s2, h2, _⟩ := streamEnd_atEnd (drive := drive) he
            have : ∀ s3, stateTransition drive (n + 2) s' ≠ (.ok none, s3) := by
              rw [stateTransition_atEnd he, h2]
              simp
            rw [nextEventLoop_one he.2.2.1 this, stateTransition_atEnd he, h2]
            simp
          · have : ∀ s3, stateTransition drive (n + 2) s' ≠ (.ok none, s3) :=
              fun s3 => stateTransition_stackable hm' hst
            rw [nextEventLoop_one hm'.2.2.1 this]
            refine stateTransition_noDiv_of_top hs ?_
            intro i f h
            rw [h] at hst
            simp [stackable] at hst
      | diverge => exact absurd rfl h1
      | _ => simp
  · simp [nextEventLoop, bind, SO.bind, SO.get, hd, pure, SO.pure]

end Parser

end Yary
