import Verif.Proof.TraceDoc
import Verif.Spec.ParseFaults

/-! What the parser's errors say about the tokens. -/

namespace Yary.PFault

open Yary Spec PM Parser

variable {σ : Type} {drive : Drive σ}

/-- If `m` returns from `s` then `Q` holds of the result; if it fails, `E` holds of the error. -/
def wpe {ε α : Type} (E : ε → Prop) (m : SO σ ε α) (s : σ) (Q : α → σ → Prop) : Prop :=
  match m s with
  | (.ok a, s') => Q a s'
  | (.err e, _) => E e
  | _ => True

section
variable {ε α β : Type} {E : ε → Prop} {Q : β → σ → Prop} {R : α → σ → Prop} {s : σ}

theorem wpe_bind {x : SO σ ε α} {f : α → SO σ ε β} :
    wpe E (x >>= f) s Q ↔ wpe E x s fun a s' => wpe E (f a) s' Q := by
  simp only [wpe, bind, SO.bind]
  generalize x s = r
  obtain ⟨o, s'⟩ := r
  cases o <;> simp

@[simp] theorem wpe_pure {a : α} : wpe E (pure a : SO σ ε α) s R ↔ R a s := Iff.rfl
@[simp] theorem wpe_fail {e : ε} : wpe E (SO.fail e : SO σ ε α) s R ↔ E e := Iff.rfl
@[simp] theorem wpe_panic : wpe E (SO.panic : SO σ ε α) s R ↔ True := Iff.rfl
@[simp] theorem wpe_diverge : wpe E (SO.diverge : SO σ ε α) s R ↔ True := Iff.rfl
@[simp] theorem wpe_get {R : σ → σ → Prop} : wpe E (SO.get : SO σ ε σ) s R ↔ R s s := Iff.rfl
@[simp] theorem wpe_modify {f : σ → σ} {R : Unit → σ → Prop} :
    wpe E (SO.modify f : SO σ ε Unit) s R ↔ R () (f s) := Iff.rfl

theorem wpe_lift {x : Out ε α} :
    wpe E (SO.lift x : SO σ ε α) s R ↔
      match x with
      | .ok a => R a s
      | .err e => E e
      | _ => True := by
  cases x <;> rfl

theorem wpe_mono {x : SO σ ε α} {R R' : α → σ → Prop} (h : wpe E x s R)
    (hm : ∀ a s', R a s' → R' a s') : wpe E x s R' := by
  simp only [wpe] at h ⊢
  generalize x s = r at h
  obtain ⟨o, s'⟩ := r
  cases o <;> simp_all

theorem wpe_and {x : SO σ ε α} {R R' : α → σ → Prop} (h : wpe E x s R) (h' : wp True x s R') :
    wpe E x s fun a s' => R a s' ∧ R' a s' := by
  simp only [wpe, wp] at h h' ⊢
  generalize x s = r at h h'
  obtain ⟨o, s'⟩ := r
  cases o <;> simp_all

end

@[simp] theorem wpe_setTop {E : ParseError → Prop} {s : PS σ} {Q : Unit → PS σ → Prop} {st : State} :
    wpe E (setTop st) s Q ↔
      Q () { s with parser := { s.parser with state := s.parser.state.setTop st } } := Iff.rfl
@[simp] theorem wpe_pushState {E : ParseError → Prop} {s : PS σ} {Q : Unit → PS σ → Prop} {st : State} :
    wpe E (pushState st) s Q ↔
      Q () { s with parser := { s.parser with state := s.parser.state.push st } } := Iff.rfl
@[simp] theorem wpe_popState {E : ParseError → Prop} {s : PS σ} {Q : Unit → PS σ → Prop} :
    wpe E popState s Q ↔
      Q () { s with parser := { s.parser with state := s.parser.state.pop } } := Iff.rfl

/-- The error is explained. -/
def Blamed (drive : Drive σ) (p0 : PeekReader σ) (es : List Event) (e : ParseError) : Prop :=
  ∃ ts q, Pops drive p0 ts q ∧ ParseFault drive es ts q e

variable {p0 : PeekReader σ} {es : List Event} {acc : List TokenEntry} {s : PS σ}

/-- The tokens taken so far, without the end of the stream. -/
def Taken (drive : Drive σ) (p0 : PeekReader σ) (acc : List TokenEntry) (s : PS σ) : Prop :=
  Pops drive p0 acc s.tokens ∧ ∀ t ∈ acc, t.marker ≠ .StreamEnd

theorem Taken.snoc_peek {r : Option TokenEntry} {t : PeekReader σ} {p : Parser} (h : Taken drive p0 acc s) (hp : s.tokens.peek drive = (.ok r, t)) :
    Taken drive p0 acc ⟨p, t⟩ := ⟨h.1.snoc_peek hp, h.2⟩

theorem Taken.snoc_pop {e : TokenEntry} {t : PeekReader σ} {p : Parser} (h : Taken drive p0 acc s) (hp : s.tokens.pop drive = (.ok (some e), t))
    (hm : e.marker ≠ .StreamEnd) : Taken drive p0 (acc ++ [e]) ⟨p, t⟩ := by
  refine ⟨h.1.snoc_pop hp, fun t ht => ?_⟩
  rcases List.mem_append.1 ht with ht | ht
  · exact h.2 t ht
  · rw [List.mem_singleton.1 ht]
    exact hm

theorem pf_peekMaybe {Q : Option TokenEntry → PS σ → Prop} (h : Taken drive p0 acc s)
    (k : ∀ r s', s'.parser = s.parser → Taken drive p0 acc s' → s'.tokens.peeked = r →
      (∀ e0, s.tokens.peeked = some e0 → r = some e0) → (r = none → ∃ q, s.tokens.peek drive = (.ok none, q)) → Q r s') :
    wpe (Blamed drive p0 es) (peekMaybe drive) s Q := by
  unfold wpe peekMaybe onTokens
  cases hp : s.tokens.peek drive with
  | mk o t =>
    cases o with
    | ok e =>
      refine k _ _ rfl (h.snoc_peek hp) (PeekReader.peek_peeked hp) ?_ (fun he => ⟨t, by rw [← he]; exact hp⟩)
      intro e0 h0
      rw [PeekReader.peek_of_peeked h0] at hp
      simp only [Prod.mk.injEq, Out.ok.injEq] at hp
      exact hp.1.symm
    | err e => exact ⟨acc, s.tokens, h.1, .source hp⟩
    | panic => trivial
    | diverge => trivial

theorem pf_peek {Q : TokenEntry → PS σ → Prop} (h : Taken drive p0 acc s)
    (k : ∀ e s', s'.parser = s.parser → Taken drive p0 acc s' → s'.tokens.peeked = some e →
      (∀ e0, s.tokens.peeked = some e0 → e = e0) → Q e s') :
    wpe (Blamed drive p0 es) (peek drive) s Q := by
  unfold PM.peek
  rw [wpe_bind]
  refine pf_peekMaybe h fun r s' h1 h2 h3 h4 h5 => ?_
  cases r with
  | none =>
    obtain ⟨q, hq⟩ := h5 rfl
    exact ⟨acc, s.tokens, h.1, .ends hq h.2⟩
  | some e => exact k e s' h1 h2 h3 fun e0 h0 => by simpa using h4 e0 h0

theorem peek_of_pop_err {p q : PeekReader σ} {e : ReaderError} (h : p.pop drive = (.err e, q)) :
    ∃ q, p.peek drive = (.err e, q) := by
  unfold PeekReader.pop at h
  unfold PeekReader.peek
  split at h
  · simp at h
  · split at h
    · next hx =>
      split at h
      · simp at h
      · next p' e' ht =>
        simp only [Prod.mk.injEq, Out.err.injEq] at h
        obtain ⟨rfl, rfl⟩ := h
        rw [if_pos hx]
        exact ⟨_, rfl⟩
      all_goals simp at h
    · simp at h

theorem peek_of_pop_none {p q : PeekReader σ} (h : p.pop drive = (.ok none, q)) :
    ∃ q, p.peek drive = (.ok none, q) := by
  unfold PeekReader.pop at h
  unfold PeekReader.peek
  split at h
  · simp at h
  · next hp =>
    split at h
    · next hx =>
      split at h
      · next p' ht =>
        simp only [Prod.mk.injEq, Out.ok.injEq] at h
        obtain ⟨h1, rfl⟩ := h
        rw [if_pos hx]
        exact ⟨_, by rw [h1]⟩
      all_goals simp at h
    · next hx =>
      rw [if_neg hx]
      exact ⟨_, rfl⟩

theorem pf_pop {Q : TokenEntry → PS σ → Prop} (h : Taken drive p0 acc s)
    (k : ∀ e s', s'.parser = s.parser → (e.marker ≠ .StreamEnd → Taken drive p0 (acc ++ [e]) s') →
      (∀ e0, s.tokens.peeked = some e0 → e = e0) → Q e s') :
    wpe (Blamed drive p0 es) (pop drive) s Q := by
  unfold PM.pop
  rw [wpe_bind]
  unfold wpe onTokens
  cases hp : s.tokens.pop drive with
  | mk o t =>
    cases o with
    | ok e =>
      cases e with
      | none =>
        obtain ⟨q, hq⟩ := peek_of_pop_none hp
        exact ⟨acc, s.tokens, h.1, .ends hq h.2⟩
      | some e =>
        refine k e _ rfl (fun hm => h.snoc_pop hp hm) ?_
        intro e0 h0
        rw [PeekReader.pop_of_peeked h0] at hp
        simp only [Prod.mk.injEq, Out.ok.injEq, Option.some.injEq] at hp
        exact hp.1.symm
    | err e =>
      obtain ⟨q, hq⟩ := peek_of_pop_err hp
      exact ⟨acc, s.tokens, h.1, .source hq⟩
    | panic => trivial
    | diverge => trivial

theorem pf_popP {e : TokenEntry} {Q : TokenEntry → PS σ → Prop} (h : Taken drive p0 acc s)
    (hp : s.tokens.peeked = some e) (hm : e.marker ≠ .StreamEnd)
    (k : ∀ s', s'.parser = s.parser → Taken drive p0 (acc ++ [e]) s' → Q e s') :
    wpe (Blamed drive p0 es) (pop drive) s Q := by
  refine pf_pop h fun e' s' h1 h2 h3 => ?_
  obtain rfl := h3 _ hp
  exact k _ h1 (h2 hm)

/-- Blame the next token. -/
theorem blame {e : TokenEntry} {er : ParseError} (h : Taken drive p0 acc s) (hp : s.tokens.peeked = some e)
    (hm : Misplaced acc e.marker er) : Blamed drive p0 es er :=
  ⟨acc, s.tokens, h.1, .token ⟨_, PeekReader.peek_of_peeked hp, trivial⟩ hm⟩

/-! ## Where the parser is -/

/-- The collection a state is in, once its start token was taken. -/
def frame : State → List Marker
  | .BlockSequenceEntry false => [.BlockSequenceStart]
  | .BlockMappingKey false | .BlockMappingValue => [.BlockMappingStart]
  | .FlowSequenceEntry false | .FlowSequenceMappingKey | .FlowSequenceMappingValue | .FlowSequenceMappingEnd => [.FlowSequenceStart]
  | .FlowMappingKey false | .FlowMappingValue _ => [.FlowMappingStart]
  | _ => []

/-- States to return to after a node. -/
def resumes : State → Bool
  | .BlockSequenceEntry false | .BlockMappingKey false | .BlockMappingValue | .FlowSequenceEntry false
  | .FlowSequenceMappingValue | .FlowSequenceMappingEnd | .FlowMappingKey false | .FlowMappingValue _ | .DocumentEnd => true
  | _ => false

/-- The next token is one of these. -/
def NextIn (s : PS σ) (l : List Marker) : Prop := ∃ e, s.tokens.peeked = some e ∧ e.marker ∈ l

/-- What shows that the node of a document was left out. -/
def docNext : List Marker := [.VersionDirective, .TagDirective, .DocumentStart, .DocumentEnd, .StreamEnd]

/-- What is known in each state about the tokens taken and the next one. -/
def At (acc : List TokenEntry) (s : PS σ) : State → Prop
  | .StreamStart => acc = []
  | .DocumentStart true _ => lastMarker acc = some .StreamStart ∨ lastMarker acc = some .DocumentEnd
  | .DocumentStart false _ => ∃ e, s.tokens.peeked = some e ∧ e.marker ≠ .DocumentEnd ∧ (NodeBefore acc ∨ e.marker ∈ docNext)
  | .DocumentContent => lastMarker acc = some .DocumentStart ∧ s.parser.state.stack = [.DocumentEnd]
  | .DocumentEnd => NodeBefore acc ∨ NextIn s docNext
  | .BlockNode => ∃ e, s.tokens.peeked = some e ∧ NodeDue acc e.marker
  | .FlowNode => False
  | .BlockSequenceEntry true => NextIn s [.BlockSequenceStart]
  | .BlockMappingKey true => NextIn s [.BlockMappingStart]
  | .FlowSequenceEntry true => NextIn s [.FlowSequenceStart]
  | .FlowMappingKey true => NextIn s [.FlowMappingStart]
  | .BlockSequenceEntry false => NodeBefore acc ∨ NextIn s [.BlockEntry, .BlockEnd]
  | .BlockMappingKey false => NodeBefore acc ∨ NextIn s [.Key, .BlockEnd] ∨ lastMarker acc = some .Value ∧ NextIn s [.Value]
  | .BlockMappingValue => NodeBefore acc ∨ NextIn s [.Key, .Value, .BlockEnd]
  | .FlowSequenceEntry false | .FlowSequenceMappingEnd => NodeBefore acc ∨ NextIn s [.FlowEntry, .FlowSequenceEnd]
  | .FlowSequenceMappingKey => lastMarker acc = some .Key
  | .FlowSequenceMappingValue => NodeBefore acc ∨ NextIn s [.Value, .FlowEntry, .FlowSequenceEnd]
  | .FlowMappingKey false => NodeBefore acc ∨ NextIn s [.FlowEntry, .FlowMappingEnd]
  | .FlowMappingValue true => NodeBefore acc
  | .FlowMappingValue false => NodeBefore acc ∨ NextIn s [.Value, .FlowEntry, .FlowMappingEnd]
  | .StreamEnd => True

/-- The invariant, after the tokens `acc` and the events `es`. -/
structure Inv (drive : Drive σ) (p0 : PeekReader σ) (acc : List TokenEntry) (es : List Event) (s : PS σ) : Prop where
  pops : Taken drive p0 acc s
  at_ : At acc s s.parser.state.top
  opened : openAfter acc = (s.parser.state.top :: s.parser.state.stack).flatMap frame
  stack : ∀ q ∈ s.parser.state.stack, resumes q = true
  dirs : inDoc s.parser.state.top = true → activeDirectives es = some s.parser.directives

theorem at_resumes {q : State} (h : resumes q = true) (hn : NodeBefore acc) : At acc s q := by
  unfold resumes at h
  split at h <;> first | exact absurd h (by decide) | skip
  all_goals first | exact .inl hn | exact hn | trivial | skip
  next b => cases b <;> first | exact .inl hn | exact hn

@[simp] theorem openAfter_snoc {e : TokenEntry} : openAfter (acc ++ [e]) = openWith (openAfter acc) e := by
  simp [openAfter]

@[simp] theorem lastMarker_snoc {e : TokenEntry} : lastMarker (acc ++ [e]) = some e.marker := by
  simp [lastMarker]

theorem activeDirectives_snoc {e : Event} (h : ∀ d b, e.data ≠ .DocumentStart d b) :
    activeDirectives (es ++ [e]) = activeDirectives es := by
  induction es with
  | nil =>
    obtain ⟨a, b, d⟩ := e
    cases d <;> simp_all [activeDirectives]
  | cons x es ih => simp only [List.cons_append, activeDirectives, ih]

theorem activeDirectives_start {e : Event} {d : Directives} {b : Bool} (h : e.data = .DocumentStart d b) :
    activeDirectives (es ++ [e]) = some d := by
  induction es with
  | nil => simp [activeDirectives, h]
  | cons x es ih => simp only [List.cons_append, activeDirectives, ih]

/-- After a token that is neither a start nor an end. -/
theorem openWith_other {l : List Marker} {e : TokenEntry} {m : Marker} (h : e.marker = m)
    (hm : m ∉ [.BlockSequenceStart, .BlockMappingStart, .FlowSequenceStart, .FlowMappingStart, .BlockEnd, .FlowSequenceEnd,
      .FlowMappingEnd] := by decide) : openWith l e = l := by
  unfold openWith
  rw [h]
  cases m <;> simp_all

theorem openWith_start {l : List Marker} {e : TokenEntry} {m : Marker} (h : e.marker = m)
    (hm : m ∈ [.BlockSequenceStart, .BlockMappingStart, .FlowSequenceStart, .FlowMappingStart] := by decide) :
    openWith l e = m :: l := by
  unfold openWith
  rw [h]
  cases m <;> simp_all

theorem openWith_end {l : List Marker} {e : TokenEntry} {m : Marker} (h : e.marker = m)
    (hm : m ∈ [.BlockEnd, .FlowSequenceEnd, .FlowMappingEnd] := by decide) : openWith l e = l.tail := by
  unfold openWith
  rw [h]
  cases m <;> simp_all

theorem nodeBefore_snoc {e : TokenEntry} {m : Marker} (h : e.marker = m) (hm : m ∈ nodeEnds := by decide) :
    NodeBefore (acc ++ [e]) := ⟨m, hm, by simp [h]⟩

/-! ## Nodes -/

/-- What a node's properties leave behind. -/
def PropsDone (drive : Drive σ) (p0 : PeekReader σ) (acc : List TokenEntry) (tag : Option (Str × Str)) (any : Bool) (s : PS σ) : Prop :=
  ∃ ps, Taken drive p0 (acc ++ ps) s ∧ (∀ t ∈ ps, t.marker = .Anchor ∨ t.marker = .Tag) ∧ openAfter (acc ++ ps) = openAfter acc ∧
    (∀ h x, tag = some (h, x) → ∃ n, ⟨.Token (.Tag h x), n⟩ ∈ ps) ∧
    (any = true → NodeBefore (acc ++ ps)) ∧ (any = false → ps = [])

theorem fetchAnchor_pf {tag : Option (Str × Str)} {any : Bool} (h : PropsDone drive p0 acc tag any s) {n : Nat} :
    wpe (Blamed drive p0 es) (fetchAnchor drive n) s fun r s' => s'.parser = s.parser ∧
      PropsDone drive p0 acc tag (any || r.2.isSome) s' ∧
      (∀ e, s.tokens.peeked = some e → r.2 = none → s'.tokens.peeked = some e ∧ e.marker ≠ .Anchor) := by
  unfold fetchAnchor
  rw [wpe_bind]
  obtain ⟨ps, h1, h2, h3, h4, h5, h6⟩ := h
  refine pf_peekMaybe h1 fun r s1 k1 k2 k3 k4 _ => ?_
  cases r with
  | none =>
    refine ⟨k1, ⟨ps, k2, h2, h3, h4, by simpa using h5, by simpa using h6⟩, ?_⟩
    intro e he
    exact absurd (k4 _ he) (by simp)
  | some e =>
    simp only
    split
    · next hm =>
      obtain ⟨a, hw⟩ := marker_anchor hm
      unfold consumeAnchor
      rw [wpe_bind, wpe_bind]
      refine pf_popP k2 k3 (by simp [*]) fun s2 g1 g2 => ?_
      rw [hw]
      simp only [wpe_pure]
      refine ⟨g1.trans k1, ?_, by simp⟩
      have h7 : PropsDone drive p0 acc tag true s2 := by
        refine ⟨ps ++ [e], by simpa using g2, ?_, ?_, ?_, ?_, by simp⟩
        · intro t ht
          simp only [List.mem_append, List.mem_singleton] at ht
          rcases ht with ht | rfl
          · exact h2 _ ht
          · exact .inl hm
        · rw [← List.append_assoc, openAfter_snoc, h3]
          exact openWith_other hm
        · intro a b hab
          obtain ⟨n, hn⟩ := h4 a b hab
          exact ⟨n, by simp [hn]⟩
        · intro _
          rw [← List.append_assoc]
          exact nodeBefore_snoc hm
      simpa using h7
    · next hm =>
      refine ⟨k1, ⟨ps, k2, h2, h3, h4, by simpa using h5, by simpa using h6⟩, ?_⟩
      intro e' he' _
      have : e = e' := by simpa using k4 _ he'
      exact ⟨by rw [k3, this], by rw [← this]; exact hm⟩

theorem fetchTag_pf {any : Bool} (h : PropsDone drive p0 acc none any s) {n : Nat} :
    wpe (Blamed drive p0 es) (fetchTag drive n) s fun r s' => s'.parser = s.parser ∧
      PropsDone drive p0 acc r.2 (any || r.2.isSome) s' ∧
      (∀ e, s.tokens.peeked = some e → r.2 = none → s'.tokens.peeked = some e ∧ e.marker ≠ .Tag) := by
  unfold fetchTag
  rw [wpe_bind]
  obtain ⟨ps, h1, h2, h3, h4, h5, h6⟩ := h
  refine pf_peekMaybe h1 fun r s1 k1 k2 k3 k4 _ => ?_
  cases r with
  | none =>
    refine ⟨k1, ⟨ps, k2, h2, h3, h4, by simpa using h5, by simpa using h6⟩, ?_⟩
    intro e he
    exact absurd (k4 _ he) (by simp)
  | some e =>
    simp only
    split
    · next hm =>
      obtain ⟨a, b, hw⟩ := marker_tag hm
      unfold consumeTag
      rw [wpe_bind, wpe_bind]
      refine pf_popP k2 k3 (by simp [*]) fun s2 g1 g2 => ?_
      rw [hw]
      simp only [wpe_pure]
      refine ⟨g1.trans k1, ?_, by simp⟩
      have h7 : PropsDone drive p0 acc (some (a, b)) true s2 := by
        refine ⟨ps ++ [e], by simpa using g2, ?_, ?_, ?_, ?_, by simp⟩
        · intro t ht
          simp only [List.mem_append, List.mem_singleton] at ht
          rcases ht with ht | rfl
          · exact h2 _ ht
          · exact .inr hm
        · rw [← List.append_assoc, openAfter_snoc, h3]
          exact openWith_other hm
        · intro x y hab
          simp only [Option.some.injEq, Prod.mk.injEq] at hab
          obtain ⟨rfl, rfl⟩ := hab
          exact ⟨e.readAt, by rw [← hw]; simp⟩
        · intro _
          rw [← List.append_assoc]
          exact nodeBefore_snoc hm
      simpa using h7
    · next hm =>
      refine ⟨k1, ⟨ps, k2, h2, h3, h4, by simpa using h5, by simpa using h6⟩, ?_⟩
      intro e' he' _
      have : e = e' := by simpa using k4 _ he'
      exact ⟨by rw [k3, this], by rw [← this]; exact hm⟩

theorem nodeProperties_pf {e : TokenEntry} (h : Taken drive p0 acc s) (hp : s.tokens.peeked = some e) {n : Nat} :
    wpe (Blamed drive p0 es) (nodeProperties drive e.marker n) s fun r s' => s'.parser = s.parser ∧
      PropsDone drive p0 acc r.2.2 (r.2.1.isSome || r.2.2.isSome) s' ∧
      (r.2.1 = none → r.2.2 = none → s'.tokens.peeked = some e ∧ e.marker ≠ .Anchor ∧ e.marker ≠ .Tag) := by
  have h0 : PropsDone drive p0 acc none false s := ⟨[], by simpa using h, by simp, by simp, by simp, by simp, by simp⟩
  unfold nodeProperties
  split
  · next hm =>
    rw [wpe_bind]
    refine wpe_mono (fetchAnchor_pf h0) ?_
    rintro ⟨n1, a⟩ s1 ⟨h1, h2, h3⟩
    rw [wpe_bind]
    refine wpe_mono (fetchTag_pf h2) ?_
    rintro ⟨n2, t⟩ s2 ⟨g1, g2, g3⟩
    simp only [wpe_pure]
    refine ⟨g1.trans h1, by simpa using g2, ?_⟩
    intro ha ht
    exact absurd hm (h3 e hp ha).2
  · next hm =>
    rw [wpe_bind]
    refine wpe_mono (fetchTag_pf h0) ?_
    rintro ⟨n1, a⟩ s1 ⟨h1, h2, h3⟩
    rw [wpe_bind]
    refine wpe_mono (fetchAnchor_pf h2) ?_
    rintro ⟨n2, t⟩ s2 ⟨g1, g2, g3⟩
    simp only [wpe_pure]
    refine ⟨g1.trans h1, ?_, ?_⟩
    · simpa [Bool.or_comm] using g2
    · intro ha ht
      exact absurd hm (h3 e hp ht).2
  · next h1 h2 =>
    exact ⟨rfl, by simpa using h0, fun _ _ => ⟨hp, h1, h2⟩⟩

/-- What a node leaves behind, before its tag is checked: the tokens `us` were taken for it. -/
structure NodeDone (drive : Drive σ) (p0 : PeekReader σ) (acc : List TokenEntry) (es : List Event) (p : Parser) (ev : Event)
    (s' : PS σ) : Prop where
  dirs : s'.parser.directives = p.directives
  event : ∀ d b, ev.data ≠ .DocumentStart d b
  kept : ∃ ts, Taken drive p0 ts s' ∧ (At ts s' s'.parser.state.top) ∧
    openAfter ts = (s'.parser.state.top :: s'.parser.state.stack).flatMap frame ∧
    (∀ q ∈ s'.parser.state.stack, resumes q = true) ∧
    ∀ h x, tagOf ev.data = some (h, x) → ¬ Defines p.directives h → activeDirectives es = some p.directives → Undefined es ts

/-- Where a node is expected. -/
structure NodeHere (acc : List TokenEntry) (block : Bool) (s : PS σ) : Prop where
  stack : ∃ q qs, s.parser.state.stack = q :: qs
  resumes : ∀ q ∈ s.parser.state.stack, resumes q = true
  opened : openAfter acc = s.parser.state.stack.flatMap frame
  block : block = true ∨ inside acc = some .FlowSequenceStart ∨ inside acc = some .FlowMappingStart

theorem NodeHere.congr {block : Bool} {s' : PS σ} (h : NodeHere acc block s) (hs : s'.parser = s.parser) :
    NodeHere acc block s' := ⟨by rw [hs]; exact h.stack, by rw [hs]; exact h.resumes, by rw [hs]; exact h.opened, h.block⟩

theorem nodeDone_pop {block : Bool} {ev : Event} {acc' ps : List TokenEntry} {s' : PS σ} (h : NodeHere acc block s)
    (hs' : s'.parser = { s.parser with state := s.parser.state.pop })
    (ht : Taken drive p0 (acc ++ ps ++ acc') s') (ho : openAfter (acc ++ ps ++ acc') = openAfter acc)
    (hn : NodeBefore (acc ++ ps ++ acc')) (hev : ∀ d b, ev.data ≠ .DocumentStart d b)
    (hps : ∀ t ∈ ps, t.marker = .Anchor ∨ t.marker = .Tag)
    (htag : ∀ h x, tagOf ev.data = some (h, x) → ∃ n, ⟨.Token (.Tag h x), n⟩ ∈ ps)
    (hc : acc' = [] ∨ ∃ c, acc' = [c] ∧ c.marker = .Scalar ∨ tagOf ev.data = none) :
    NodeDone drive p0 acc es s.parser ev s' := by
  obtain ⟨q, qs, hq⟩ := h.stack
  have hpop : s.parser.state.pop = ⟨q, qs⟩ := by unfold StateMachine.pop; rw [hq]
  rw [hpop] at hs'
  refine ⟨by rw [hs'], hev, _, ht, ?_, ?_, ?_, ?_⟩
  · rw [hs']
    exact at_resumes (h.resumes q (by simp [hq])) hn
  · rw [ho, h.opened, hq, hs']
  · rw [hs']
    exact fun x hx => h.resumes x (by simp [hq, hx])
  · intro a x hax hu ha
    obtain ⟨n, hm⟩ := htag a x hax
    refine .mk hps hm ?_ ha hu
    rcases hc with hc | ⟨c, hc | hc⟩
    · exact .inl hc
    · exact .inr ⟨c, hc⟩
    · rw [hc] at hax; simp at hax

theorem nodeDone_set {block : Bool} {ev : Event} {ps : List TokenEntry} {s' : PS σ} (h : NodeHere acc block s) {u : State}
    (hp : s'.parser = { s.parser with state := s.parser.state.setTop u }) (hu : frame u = [])
    (ht : Taken drive p0 (acc ++ ps) s') (ho : openAfter (acc ++ ps) = openAfter acc)
    (hat : At (acc ++ ps) s' u) (hev : ∀ d b, ev.data ≠ .DocumentStart d b)
    (hps : ∀ t ∈ ps, t.marker = .Anchor ∨ t.marker = .Tag)
    (htag : ∀ h x, tagOf ev.data = some (h, x) → ∃ n, ⟨.Token (.Tag h x), n⟩ ∈ ps) :
    NodeDone drive p0 acc es s.parser ev s' := by
  refine ⟨by rw [hp], hev, _, ht, ?_, ?_, ?_, ?_⟩
  · rw [hp]
    exact hat
  · rw [ho, h.opened, hp]
    simp [StateMachine.setTop, hu]
  · rw [hp]
    exact h.resumes
  · intro a x hax hu ha
    obtain ⟨n, hm⟩ := htag a x hax
    have := Undefined.mk (before := acc) hps hm (.inl rfl) ha hu
    simpa using this

theorem inside_of_flow {m : Marker} (h : inside acc = some .FlowSequenceStart ∨ inside acc = some .FlowMappingStart)
    (hm : m ∉ [.Scalar, .Alias, .Anchor, .Tag, .FlowSequenceStart, .FlowMappingStart]) : ¬ StartsNode acc m := by
  rintro (h1 | ⟨-, h1, h2⟩)
  · exact hm h1
  · rcases h with h | h
    · exact h1 h
    · exact h2 h

theorem nodeContent_pf {block : Bool} {k : NodeKind} {n : Nat} {anchor : Option Str} {tag : Option (Str × Str)}
    (hp : PropsDone drive p0 acc tag (anchor.isSome || tag.isSome) s) (hn : NodeHere acc block s)
    (hd : anchor = none → tag = none → ∃ e, s.tokens.peeked = some e ∧ NodeDue acc e.marker ∧ e.marker ≠ .Anchor ∧ e.marker ≠ .Tag ∧
      e.marker ≠ .Alias) :
    wpe (Blamed drive p0 es) (nodeContent drive block k n anchor tag) s (NodeDone drive p0 acc es s.parser) := by
  unfold nodeContent
  rw [wpe_bind]
  obtain ⟨ps, h1, h2, h3, h4, h5, h6⟩ := hp
  refine pf_peek h1 fun e s1 k1 k2 k3 k4 => ?_
  have hn1 := hn.congr k1
  simp only
  have himpl (hm : e.marker ∉ [.Scalar, .FlowSequenceStart, .FlowMappingStart])
      (hb : e.marker ∈ [.BlockSequenceStart, .BlockMappingStart] → block = false) : wpe (Blamed drive p0 es)
      (if (anchor.isSome || tag.isSome) = true then do
        popState
        pure { start := n, stop := e.readAt
               data := .Scalar { anchor, tag, kind := k } ScalarLike.empty }
      else (SO.fail .MissingNode : PM σ Event)) s1 (NodeDone drive p0 acc es s.parser) := by
    split
    · next hany =>
      simp only [wpe_bind, wpe_popState, wpe_pure]
      rw [← k1]
      exact nodeDone_pop hn1 (acc' := []) (ps := ps) rfl (by rw [List.append_nil]; exact k2) (by simpa using h3)
        (by simpa using h5 hany) (by simp) h2 h4 (.inl rfl)
    · next hany =>
      rw [wpe_fail]
      have hps : ps = [] := h6 (by simpa using hany)
      subst hps
      simp only [Bool.or_eq_true, not_or, Option.not_isSome_iff_eq_none] at hany
      obtain ⟨e', he', hdue, ha, ht, hal⟩ := hd hany.1 hany.2
      obtain rfl := k4 _ he'
      refine blame (acc := acc) (by simpa using k2) k3 (.node hdue ?_)
      have hm' : e.marker ∉ [.Scalar, .Alias, .Anchor, .Tag, .FlowSequenceStart, .FlowMappingStart] := by
        simp only [List.mem_cons, List.not_mem_nil, or_false, not_or] at hm ⊢
        exact ⟨hm.1, hal, ha, ht, hm.2.1, hm.2.2⟩
      rcases hn.block with hb' | hb'
      · rintro (h | ⟨h, -⟩)
        · exact hm' h
        · rw [hb h] at hb'; simp at hb'
      · exact inside_of_flow hb' hm'
  split
  · next hm =>
    simp only [wpe_bind, wpe_setTop, wpe_pure]
    rw [← k1]
    exact nodeDone_set hn1 (ps := ps) rfl rfl k2 h3 ⟨e, k3, by simp [hm]⟩ (by simp) h2 h4
  · next hm =>
    simp only [wpe_bind, wpe_setTop, wpe_pure]
    rw [← k1]
    exact nodeDone_set hn1 (ps := ps) rfl rfl k2 h3 ⟨e, k3, by simp [hm]⟩ (by simp) h2 h4
  · next hm =>
    split
    · simp only [wpe_bind, wpe_setTop, wpe_pure]
      rw [← k1]
      exact nodeDone_set hn1 (ps := ps) rfl rfl k2 h3 ⟨e, k3, by simp [hm]⟩ (by simp) h2 h4
    · next hb => exact himpl (by simp [hm]) fun _ => by simpa using hb
  · next hm =>
    split
    · simp only [wpe_bind, wpe_setTop, wpe_pure]
      rw [← k1]
      exact nodeDone_set hn1 (ps := ps) rfl rfl k2 h3 ⟨e, k3, by simp [hm]⟩ (by simp) h2 h4
    · next hb => exact himpl (by simp [hm]) fun _ => by simpa using hb
  · next hm =>
    rw [wpe_bind]
    unfold consumeScalar
    rw [wpe_bind]
    refine pf_popP k2 k3 (by simp [*]) fun s2 g1 g2 => ?_
    have hn2 := hn1.congr g1
    rw [← k1, ← g1]
    rcases marker_scalar hm with ⟨d, st, hw⟩ | ⟨l, hw⟩
    · rw [hw]
      simp only [wpe_bind, wpe_popState, wpe_pure]
      exact nodeDone_pop hn2 (acc' := [e]) (ps := ps) rfl g2 (by rw [openAfter_snoc, h3, openWith_other hm])
        (nodeBefore_snoc hm) (by simp) h2 h4 (.inr ⟨e, .inl ⟨rfl, hm⟩⟩)
    · rw [hw]
      simp only [wpe_bind, wpe_popState, wpe_pure]
      exact nodeDone_pop hn2 (acc' := [e]) (ps := ps) rfl g2 (by rw [openAfter_snoc, h3, openWith_other hm])
        (nodeBefore_snoc hm) (by simp) h2 h4 (.inr ⟨e, .inl ⟨rfl, hm⟩⟩)
  · next h1 h2 h3 h4 h5 =>
    refine himpl ?_ ?_
    · simp only [List.mem_cons, List.not_mem_nil, or_false, not_or]
      exact ⟨h5, h1, h2⟩
    · simp only [List.mem_cons, List.not_mem_nil, or_false]
      rintro (h | h)
      · exact (h3 h).elim
      · exact (h4 h).elim

theorem nodeEvent_pf {block : Bool} {k : NodeKind} {e : TokenEntry} (h : Taken drive p0 acc s) (hp : s.tokens.peeked = some e)
    (hn : NodeHere acc block s) (hd : NodeDue acc e.marker) :
    wpe (Blamed drive p0 es) (nodeEvent drive block k) s (NodeDone drive p0 acc es s.parser) := by
  unfold nodeEvent
  rw [wpe_bind]
  refine pf_peek h fun e1 s1 h1 h2 h3 h4 => ?_
  obtain rfl := h4 _ hp
  have hn1 := hn.congr h1
  split
  · next hm =>
    obtain ⟨a, hw⟩ := marker_alias hm
    rw [wpe_bind, wpe_popState, wpe_bind]
    unfold consumeAlias
    rw [wpe_bind]
    refine pf_popP (acc := acc) (e := e1) h2 h3 (by simp [*]) fun s2 g1 g2 => ?_
    rw [hw]
    simp only [wpe_pure]
    rw [← h1]
    exact nodeDone_pop hn1 (acc' := [e1]) (ps := []) g1 (by simpa using g2)
      (by rw [openAfter_snoc, List.append_nil, openWith_other hm]) (nodeBefore_snoc hm) (by simp) (by simp) (by simp [tagOf])
      (.inr ⟨e1, .inr rfl⟩)
  · next hm =>
    rw [wpe_bind]
    refine wpe_mono (nodeProperties_pf h2 h3) ?_
    rintro ⟨n, a, t⟩ s2 ⟨g1, g2, g3⟩
    rw [← h1, ← g1]
    refine nodeContent_pf g2 (hn1.congr g1) ?_
    intro ha ht
    obtain ⟨k1, k2, k3⟩ := g3 ha ht
    exact ⟨e1, k1, hd, k2, k3, hm⟩

theorem validateTag_err {tags : TagMap} {tag : Option (Str × Str)} {sc : Bool} {e : ParseError}
    (h : validateTag tags tag sc = .err e) :
    e = .UndefinedTag ∧ ∃ a b, tag = some (a, b) ∧ ∀ x, (a, x) ∉ tags := by
  unfold validateTag at h
  split at h
  · simp at h
  · next a b =>
    simp only at h
    split at h
    · simp at h
    · split at h
      · next hg =>
        simp only [Out.err.injEq] at h
        exact ⟨h.symm, a, b, rfl, get_none (by simpa using hg)⟩
      · simp at h

theorem validateEventTag_err {tags : TagMap} {ev : Event} {e : ParseError}
    (h : validateEventTag tags ev = .err e) :
    e = .UndefinedTag ∧ ∃ a b, tagOf ev.data = some (a, b) ∧ ∀ x, (a, x) ∉ tags := by
  obtain ⟨es, ee, ed⟩ := ev
  unfold validateEventTag at h
  cases ed with
  | Scalar node c | SequenceStart node | MappingStart node =>
    simp only at h
    cases hv : validateTag tags node.tag _ with
    | err e' => rw [hv] at h; cases h; exact validateTag_err hv
    | ok r => rw [hv] at h; cases h
    | panic => rw [hv] at h; cases h
    | diverge => rw [hv] at h; cases h
  | _ => cases h

theorem validateEventTag_kind {tags : TagMap} {ev ev' : Event} (h : validateEventTag tags ev = .ok ev')
    (hd : ∀ d b, ev.data ≠ .DocumentStart d b) : ∀ d b, ev'.data ≠ .DocumentStart d b := by
  obtain ⟨es, ee, ed⟩ := ev
  unfold validateEventTag at h
  cases ed with
  | Scalar node c | SequenceStart node | MappingStart node =>
    simp only [Out.bind_eq_ok, Out.pure_eq, Out.ok.injEq] at h
    obtain ⟨r, hr, rfl⟩ := h
    simp
  | _ =>
    simp only [Out.pure_eq, Out.ok.injEq] at h
    subst h
    exact hd

/-- The invariant after a transition. -/
def After' (drive : Drive σ) (p0 : PeekReader σ) (es : List Event) (ev : Option Event) (s' : PS σ) : Prop :=
  ∃ acc, Inv drive p0 acc (es ++ ev.toList) s'

theorem node_pf {block : Bool} {k : NodeKind} {e : TokenEntry} (h : Taken drive p0 acc s) (hp : s.tokens.peeked = some e)
    (hn : NodeHere acc block s) (hd : NodeDue acc e.marker) (ha : activeDirectives es = some s.parser.directives) :
    wpe (Blamed drive p0 es) (node drive block k) s (After' drive p0 es) := by
  unfold node
  rw [wpe_bind]
  refine wpe_mono (nodeEvent_pf h hp hn hd) ?_
  intro ev s' ⟨h1, h2, ts, h3, h4, h5, h6, h7⟩
  rw [wpe_bind, wpe_get, wpe_bind, wpe_lift, h1]
  cases hv : validateEventTag s.parser.directives.tags ev with
  | ok e' =>
    simp only [wpe_pure]
    refine ⟨ts, h3, h4, h5, h6, fun _ => ?_⟩
    simp only [Option.toList_some]
    rw [activeDirectives_snoc (validateEventTag_kind hv h2), h1, ha]
  | err er =>
    obtain ⟨rfl, a, b, hab, hu⟩ := validateEventTag_err hv
    exact ⟨ts, s'.tokens, h3.1, .undefined (h7 a b hab (fun ⟨x, hx⟩ => hu x hx) ha)⟩
  | panic => trivial
  | diverge => trivial

/-- `node` after a state push. -/
theorem node_push_pf {s1 : PS σ} {u : State} {block : Bool} {k : NodeKind} {e : TokenEntry} (h : Taken drive p0 acc s1)
    (hp : s1.tokens.peeked = some e) (hs : s1.parser = s.parser) (hr : ∀ q ∈ s.parser.state.stack, resumes q = true)
    (ho : openAfter acc = frame u ++ s.parser.state.stack.flatMap frame) (hu : resumes u = true)
    (hb : block = true ∨ frame u = [.FlowSequenceStart] ∨ frame u = [.FlowMappingStart])
    (hd : NodeDue acc e.marker) (ha : activeDirectives es = some s.parser.directives) :
    wpe (Blamed drive p0 es) (do pushState u; node drive block k) s1 (After' drive p0 es) := by
  rw [wpe_bind, wpe_pushState]
  refine node_pf (s := { s1 with parser := { s1.parser with state := s1.parser.state.push u } }) (acc := acc) (e := e) h hp ?_ hd
    (by simpa [hs] using ha)
  refine ⟨⟨u, _, rfl⟩, ?_, ?_, ?_⟩
  · intro q hq
    simp only [StateMachine.push, hs, List.mem_cons] at hq
    rcases hq with rfl | hq
    · exact hu
    · exact hr _ hq
  · simp [StateMachine.push, hs, ho]
  · refine hb.imp_right fun hb => ?_
    simp only [inside, ho]
    rcases hb with hb | hb <;> simp [hb]

/-- A simple event that moves to `u`. -/
theorem simple_pf {s1 : PS σ} {u : State} (h : Taken drive p0 acc s1) (hs : s1.parser = s.parser)
    (hr : ∀ q ∈ s.parser.state.stack, resumes q = true)
    (ho : openAfter acc = frame u ++ s.parser.state.stack.flatMap frame) {ev : Event}
    (hat : At acc s1 u) (hev : ∀ d b, ev.data ≠ .DocumentStart d b)
    (ha : inDoc u = true → activeDirectives es = some s.parser.directives) :
    wpe (Blamed drive p0 es) (do setTop u; pure (some ev)) s1 (After' drive p0 es) := by
  simp only [wpe_bind, wpe_setTop, wpe_pure]
  refine ⟨acc, h, ?_, ?_, ?_, ?_⟩
  · have : ∀ u, At acc s1 u → At acc
        { s1 with parser := { s1.parser with state := s1.parser.state.setTop u } } u := by
      intro u hu
      exact hu
    exact this _ hat
  · simp [StateMachine.setTop, hs, ho]
  · simpa [StateMachine.setTop, hs] using hr
  · intro hi
    simp only [Option.toList_some]
    rw [activeDirectives_snoc hev]
    simpa [hs] using ha hi

/-- A collection end. -/
theorem end_pf {s1 : PS σ} {e : TokenEntry} {q : State} {qs : List State} {ev : Event} (h : Taken drive p0 (acc ++ [e]) s1)
    (hs : s1.parser = { s.parser with state := ⟨q, qs⟩ })
    (hst : s.parser.state.stack = q :: qs)
    (hr : ∀ q ∈ s.parser.state.stack, resumes q = true) {m : Marker} (ho : openAfter acc = m :: s.parser.state.stack.flatMap frame)
    (hm : e.marker ∈ [.BlockEnd, .FlowSequenceEnd, .FlowMappingEnd]) (hev : ∀ d b, ev.data ≠ .DocumentStart d b)
    (ha : activeDirectives es = some s.parser.directives) : After' drive p0 es (some ev) s1 := by
  refine ⟨acc ++ [e], h, ?_, ?_, ?_, ?_⟩
  · rw [hs]
    refine at_resumes (hr q (by simp [hst])) (nodeBefore_snoc rfl ?_)
    revert hm
    cases e.marker <;> decide
  · rw [openAfter_snoc, openWith_end rfl hm, ho, hs, hst]
    rfl
  · rw [hs]
    exact fun x hx => hr x (by simp [hst, hx])
  · intro _
    simp only [Option.toList_some]
    rw [activeDirectives_snoc hev, hs, ha]

end Yary.PFault
