import Verif.Proof.TraceDoc
import Verif.Proof.Client
import Verif.Proof.Count

/-! # What events are made of, whatever went wrong before -/

namespace Yary.Shown

open Spec PM

variable {σ : Type} {drive : Drive σ} {s : PS σ}

/-- The event is made of tokens taken since `p0`. -/
def Shown (drive : Drive σ) (p0 : PeekReader σ) (ev : Option Event) (s' : PS σ) : Prop :=
  ∃ ts, Pops drive p0 ts s'.tokens ∧ ∀ e, ev = some e →
    (∃ us, us.Sublist ts ∧ Explains us e.data) ∧ Marked (ts ++ s'.tokens.peeked.toList) e

theorem Marked.after {a l : List TokenEntry} {e : Event} (h : Marked l e) : Marked (a ++ l) e := by
  obtain ⟨⟨x, h1, h2⟩, ⟨y, h3, h4⟩, h5⟩ := h
  refine ⟨⟨x, List.mem_append_right _ h1, h2⟩, ⟨y, List.mem_append_right _ h3, h4⟩, fun h => h5 ?_⟩
  rw [List.map_append] at h
  exact (List.pairwise_append.1 h).2.1

theorem Shown.after {p0 p1 : PeekReader σ} {pre : List TokenEntry} {ev : Option Event} {s' : PS σ} (hp : Pops drive p0 pre p1)
    (h : Shown drive p1 ev s') : Shown drive p0 ev s' := by
  obtain ⟨ts, h1, h2⟩ := h
  refine ⟨pre ++ ts, hp.append h1, fun e he => ?_⟩
  obtain ⟨⟨us, h3, h4⟩, h5⟩ := h2 e he
  exact ⟨⟨us, h3.trans (List.sublist_append_right _ _), h4⟩, by rw [List.append_assoc]; exact Marked.after h5⟩

theorem after {p0 : PeekReader σ} {pre : List TokenEntry} {m : PM σ (Option Event)} (hp : Tr drive p0 pre s)
    (h : wp True m s (Shown drive s.tokens)) : wp True m s (Shown drive p0) :=
  wp_mono h fun _ _ h => h.after hp

/-- As `Shown`, before the tag is checked. -/
def Shows (drive : Drive σ) (p0 : PeekReader σ) (ev : Event) (s' : PS σ) : Prop :=
  ∃ ts, Pops drive p0 ts s'.tokens ∧ PreExplains ts ev.data ∧ Marked (ts ++ s'.tokens.peeked.toList) ev

open Parser

theorem nodeContent {p0 : PeekReader σ} {acc : List TokenEntry} {ps : List Piece}
    (h : Tr drive p0 acc s) (hc : Carry acc ps)
    {block : Bool} {k : NodeKind} {n : Nat} {anchor : Option Str} {tag : Option (Str × Str)}
    (hps : Props ps anchor tag) {x : TokenEntry} (hx : x ∈ acc ++ s.tokens.peeked.toList) (hn : n = x.readAt) :
    wp True (nodeContent drive block k n anchor tag) s (Shows drive p0) := by
  unfold Parser.nodeContent
  rw [wp_bind]
  refine tr_peek h fun e s1 h1 h2 h3 h4 => ?_
  have hx' : x ∈ acc ++ [e] := by
    simp only [List.mem_append, Option.mem_toList, Option.mem_def, List.mem_singleton] at hx ⊢
    rcases hx with hx | hx
    · exact Or.inl hx
    · exact Or.inr (h4 _ hx).symm
  have hmk : ∀ {e' : Event} {s' : PS σ}, s'.tokens = s1.tokens → e'.start = n → e'.stop = e.readAt → Marked (acc ++ s'.tokens.peeked.toList) e' := by
    intro e' s' k1 k2 k3
    rw [k1, h3]
    exact Marked.upto hx' (k2.trans hn) k3
  simp only
  have himpl : wp True
      (if (anchor.isSome || tag.isSome) = true then do
        popState
        pure { start := n, stop := e.readAt
               data := .Scalar { anchor, tag, kind := k } ScalarLike.empty }
      else (SO.fail .MissingNode : PM σ Event)) s1 (Shows drive p0) := by
    split
    · simp only [wp_bind, wp_popState, wp_pure]
      exact ⟨acc, h2, ⟨ps, hps, Or.inr ⟨hc, rfl⟩⟩, hmk rfl rfl rfl⟩
    · simp
  split
  · simp only [wp_bind, wp_setTop, wp_pure]
    exact ⟨acc, h2, ⟨ps, hps, hc⟩, hmk rfl rfl rfl⟩
  · simp only [wp_bind, wp_setTop, wp_pure]
    exact ⟨acc, h2, ⟨ps, hps, hc⟩, hmk rfl rfl rfl⟩
  · split
    · simp only [wp_bind, wp_setTop, wp_pure]
      exact ⟨acc, h2, ⟨ps, hps, hc⟩, hmk rfl rfl rfl⟩
    · exact himpl
  · split
    · simp only [wp_bind, wp_setTop, wp_pure]
      exact ⟨acc, h2, ⟨ps, hps, hc⟩, hmk rfl rfl rfl⟩
    · exact himpl
  · next hm =>
    rw [wp_bind]
    unfold consumeScalar
    rw [wp_bind]
    refine tr_popP h2 h3 fun s2 g1 g2 => ?_
    rcases marker_scalar hm with ⟨d, st, hw⟩ | ⟨l, hw⟩
    · rw [hw]
      simp only [wp_bind, wp_popState, wp_pure]
      have hp : pieces e = [.scalar (.Eager { data := d, style := st })] := by simp [pieces, hw]
      have hc' := hc.snoc (t := e) (by simp [hp])
      rw [hp] at hc'
      refine ⟨_, g2, ⟨ps, hps, Or.inl hc'⟩, ?_⟩
      rw [List.append_assoc]
      exact Marked.upto hx' hn rfl
    · rw [hw]
      simp only [wp_bind, wp_popState, wp_pure]
      have hp : pieces e = [.scalar (.Lazy l)] := by simp [pieces, hw]
      have hc' := hc.snoc (t := e) (by simp [hp])
      rw [hp] at hc'
      refine ⟨_, g2, ⟨ps, hps, Or.inl hc'⟩, ?_⟩
      rw [List.append_assoc]
      exact Marked.upto hx' hn rfl
  · exact himpl

theorem nodeEvent {block : Bool} {k : NodeKind} : wp True (nodeEvent drive block k) s (Shows drive s.tokens) := by
  unfold Parser.nodeEvent
  rw [wp_bind]
  refine tr_peek (.nil _) fun e s1 h1 h2 h3 h4 => ?_
  split
  · next hm =>
    obtain ⟨a, hw⟩ := marker_alias hm
    rw [wp_bind, wp_popState, wp_bind]
    unfold consumeAlias
    rw [wp_bind]
    refine tr_popP (acc := []) (e := e) h2 h3 fun s2 g1 g2 => ?_
    rw [hw]
    simp only [wp_pure]
    have hp : pieces e = [.alias a] := by simp [pieces, hw]
    have hc' := carry_nil.snoc (t := e) (by simp [hp])
    rw [hp] at hc'
    exact ⟨_, g2, hc', Marked.same (x := e) (by simp) rfl rfl⟩
  · rw [wp_bind]
    refine wp_mono (nodeProperties_tr (x := e) h2 carry_nil (by simp [h3]) rfl) ?_
    rintro ⟨n, a, t⟩ s2 ⟨g1, acc2, ps, g2, g3, g4, y, hy, hy'⟩
    exact nodeContent g2 g3 g4 hy hy'

theorem node {block : Bool} {k : NodeKind} : wp True (node drive block k) s (Shown drive s.tokens) := by
  unfold Parser.node
  rw [wp_bind]
  refine wp_mono nodeEvent ?_
  rintro ev s' ⟨ts, h1, h2, h3⟩
  rw [wp_bind, wp_get, wp_bind, wp_lift]
  cases hv : validateEventTag s'.parser.directives.tags ev with
  | ok e' =>
    obtain ⟨g1, g2, g3⟩ := validateEventTag_explains hv h2
    simp only [wp_pure]
    refine ⟨ts, h1, fun e he => ?_⟩
    cases he
    obtain ⟨m1, m2, m3⟩ := h3
    exact ⟨⟨ts, List.Sublist.refl _, g1⟩, by rw [g2]; exact m1, by rw [g3]; exact m2, by rw [g2, g3]; exact m3⟩
  | err => trivial
  | panic => trivial
  | diverge => trivial

/-- An event of its own. -/
theorem own {p0 : PeekReader σ} {acc : List TokenEntry} {e : Event} {x : TokenEntry} (h : Tr drive p0 acc s) (hx : x ∈ acc ++ s.tokens.peeked.toList)
    {us : List TokenEntry} (hu : us.Sublist acc) (he : Explains us e.data) (h1 : e.start = x.readAt) (h2 : e.stop = x.readAt) :
    Shown drive p0 (some e) s :=
  ⟨acc, h, fun e' h' => by cases h'; exact ⟨⟨us, hu, he⟩, Marked.same hx h1 h2⟩⟩

theorem explains_left {n : Nat} {k : NodeKind} : Explains [] (emptyScalar n k).data := explains_empty carry_nil

theorem setEmpty {p0 : PeekReader σ} {acc : List TokenEntry} {e : TokenEntry} {st : State} {k : NodeKind} (h : Tr drive p0 acc s)
    (he : s.tokens.peeked = some e) : wp True (do setTop st; pure (some (emptyScalar e.readAt k)) : PM σ (Option Event)) s (Shown drive p0) := by
  simp only [wp_bind, wp_setTop, wp_pure]
  exact own (x := e) h (by simp [he]) (List.nil_sublist _) explains_left rfl rfl

theorem pushNode {p0 : PeekReader σ} {acc : List TokenEntry} {st : State} {block : Bool} {k : NodeKind} (h : Tr drive p0 acc s) :
    wp True (do pushState st; Parser.node drive block k) s (Shown drive p0) := by
  rw [wp_bind, wp_pushState]
  exact after (s := { s with parser := _ }) h node

theorem popFirst {b : Bool} : wp True (popFirst drive b) s fun _ s' => ∃ acc, Tr drive s.tokens acc s' := by
  unfold Parser.popFirst
  split
  · rw [wp_bind]
    exact tr_pop (.nil _) fun e s' _ h _ => ⟨_, h⟩
  · exact ⟨[], .nil _⟩

theorem peekPopFirst {b : Bool} : wp True (peekPopFirst drive b) s fun _ s' => ∃ acc, Tr drive s.tokens acc s' := by
  unfold Parser.peekPopFirst
  split
  · rw [wp_bind]
    refine tr_peek (.nil _) fun e s' _ h _ _ => ?_
    rw [wp_bind]
    exact tr_pop h fun e s' _ h _ => ⟨_, h⟩
  · exact ⟨[], .nil _⟩

theorem popFlowEntry {p0 : PeekReader σ} {acc : List TokenEntry} {b : Bool} {e : TokenEntry} {err : ParseError} (h : Tr drive p0 acc s) :
    wp True (popFlowEntry drive b e err) s fun _ s' => ∃ acc, Tr drive p0 acc s' := by
  unfold Parser.popFlowEntry
  split
  · exact ⟨_, h⟩
  · split
    · rw [wp_bind]
      exact tr_pop h fun e s' _ h _ => ⟨_, h⟩
    · simp

theorem endOf {p0 : PeekReader σ} {acc : List TokenEntry} {e : TokenEntry} {d : EventData} (h : Tr drive p0 acc s) (he : s.tokens.peeked = some e)
    (hd : Explains [] d) :
    wp True (do let _ ← pop drive; popState; pure (some { start := e.readAt, stop := e.readAt, data := d }) : PM σ (Option Event)) s (Shown drive p0) := by
  rw [wp_bind]
  refine tr_popP h he fun s' _ h' => ?_
  simp only [wp_bind, wp_popState, wp_pure]
  exact own (x := e) h' (by simp) (List.nil_sublist _) hd rfl rfl

theorem blockSequenceEntry {b : Bool} : wp True (blockSequenceEntry drive b) s (Shown drive s.tokens) := by
  unfold Parser.blockSequenceEntry
  rw [wp_bind]
  refine wp_mono popFirst ?_
  rintro _ s1 ⟨acc, h1⟩
  rw [wp_bind]
  refine tr_peek h1 fun e s2 _ h2 h3 _ => ?_
  split
  · rw [wp_bind]
    refine tr_popP h2 h3 fun s3 _ h4 => ?_
    rw [wp_bind]
    refine tr_peek h4 fun e' s4 _ h5 h6 _ => ?_
    split
    · simp only [wp_bind, wp_setTop, wp_pure]
      exact own (x := e) h5 (by simp) (List.nil_sublist _) explains_left rfl rfl
    · exact pushNode h5
  · exact endOf h2 h3 carry_nil
  · simp

theorem blockMappingKey {b : Bool} : wp True (blockMappingKey drive b) s (Shown drive s.tokens) := by
  unfold Parser.blockMappingKey
  rw [wp_bind]
  refine wp_mono peekPopFirst ?_
  rintro _ s1 ⟨acc, h1⟩
  rw [wp_bind]
  refine tr_peek h1 fun e s2 _ h2 h3 _ => ?_
  split
  · rw [wp_bind]
    refine tr_popP h2 h3 fun s3 _ h4 => ?_
    rw [wp_bind]
    refine tr_peek h4 fun e' s4 _ h5 h6 _ => ?_
    split
    · exact pushNode h5
    · exact setEmpty h5 h6
  · exact endOf h2 h3 carry_nil
  · simp

theorem blockMappingValue : wp True (blockMappingValue drive) s (Shown drive s.tokens) := by
  unfold Parser.blockMappingValue
  rw [wp_bind]
  refine tr_peek (.nil _) fun e s2 _ h2 h3 _ => ?_
  split
  · rw [wp_bind]
    refine tr_popP h2 h3 fun s3 _ h4 => ?_
    rw [wp_bind]
    refine tr_peek h4 fun e' s4 _ h5 h6 _ => ?_
    split
    · exact pushNode h5
    · exact setEmpty h5 h6
  · exact setEmpty h2 h3

theorem fetchSequenceEnd {p0 : PeekReader σ} {acc : List TokenEntry} {e : TokenEntry} (h : Tr drive p0 acc s) (he : s.tokens.peeked = some e) :
    wp True (do let ev ← fetchSequenceEnd drive e.readAt e.readAt; pure (some ev)) s (Shown drive p0) := by
  unfold Parser.fetchSequenceEnd
  simp only [wp_bind, wp_popState, wp_pure]
  refine tr_popP (s := { s with parser := _ }) h he fun s' _ h' => ?_
  exact own (x := e) h' (by simp) (List.nil_sublist _) carry_nil rfl rfl

theorem fetchMappingEnd {p0 : PeekReader σ} {acc : List TokenEntry} {e : TokenEntry} (h : Tr drive p0 acc s) (he : s.tokens.peeked = some e) :
    wp True (do let ev ← fetchMappingEnd drive e.readAt e.readAt; pure (some ev)) s (Shown drive p0) := by
  unfold Parser.fetchMappingEnd
  simp only [wp_bind, wp_popState, wp_pure]
  refine tr_popP (s := { s with parser := _ }) h he fun s' _ h' => ?_
  exact own (x := e) h' (by simp) (List.nil_sublist _) carry_nil rfl rfl

theorem flowSequenceEntry {b : Bool} : wp True (flowSequenceEntry drive b) s (Shown drive s.tokens) := by
  unfold Parser.flowSequenceEntry
  rw [wp_bind]
  refine wp_mono popFirst ?_
  rintro _ s1 ⟨acc, h1⟩
  rw [wp_bind]
  refine tr_peek h1 fun e s2 _ h2 h3 _ => ?_
  split
  · rw [wp_bind]
    refine wp_mono (popFlowEntry h2) ?_
    rintro _ s3 ⟨acc, h4⟩
    rw [wp_bind]
    refine tr_peek h4 fun e' s4 _ h5 h6 _ => ?_
    split
    · rw [wp_bind]
      refine tr_popP h5 h6 fun s5 _ h7 => ?_
      simp only [wp_bind, wp_setTop, wp_pure]
      exact own (x := e') h7 (by simp) (List.nil_sublist _) ⟨[], .inl rfl, carry_nil⟩ rfl rfl
    · split
      · exact pushNode h5
      · exact fetchSequenceEnd h5 h6
  · exact fetchSequenceEnd h2 h3

theorem flowSequenceEntryMappingKey : wp True (flowSequenceEntryMappingKey drive) s (Shown drive s.tokens) := by
  unfold Parser.flowSequenceEntryMappingKey
  rw [wp_bind]
  refine tr_peek (.nil _) fun e s2 _ h2 h3 _ => ?_
  split
  · exact pushNode h2
  · exact setEmpty h2 h3

theorem flowSequenceEntryMappingValue : wp True (flowSequenceEntryMappingValue drive) s (Shown drive s.tokens) := by
  unfold Parser.flowSequenceEntryMappingValue Parser.flowPairHasValue
  rw [wp_bind]
  refine tr_peek (.nil _) fun e s2 _ h2 h3 _ => ?_
  rw [wp_bind]
  split
  · rw [wp_bind]
    refine tr_popP h2 h3 fun s3 _ h4 => ?_
    rw [wp_bind]
    refine tr_peek h4 fun e' s4 _ h5 h6 _ => ?_
    rw [wp_pure]
    split
    · exact pushNode h5
    · simp only [wp_bind, wp_setTop, wp_pure]
      exact own (x := e) h5 (by simp) (List.nil_sublist _) explains_left rfl rfl
  · rw [wp_pure]
    split
    · exact pushNode h2
    · exact setEmpty h2 h3

theorem flowSequenceEntryMappingEnd : wp True (flowSequenceEntryMappingEnd drive) s (Shown drive s.tokens) := by
  unfold Parser.flowSequenceEntryMappingEnd
  rw [wp_bind]
  refine tr_peek (.nil _) fun e s2 _ h2 h3 _ => ?_
  simp only [wp_bind, wp_setTop, wp_pure]
  exact own (x := e) h2 (by simp [h3]) (List.nil_sublist _) carry_nil rfl rfl

theorem flowMappingKey {b : Bool} : wp True (flowMappingKey drive b) s (Shown drive s.tokens) := by
  unfold Parser.flowMappingKey
  rw [wp_bind]
  refine wp_mono popFirst ?_
  rintro _ s1 ⟨acc, h1⟩
  rw [wp_bind]
  refine tr_peek h1 fun e s2 _ h2 h3 _ => ?_
  split
  · rw [wp_bind]
    refine wp_mono (popFlowEntry h2) ?_
    rintro _ s3 ⟨acc, h4⟩
    rw [wp_bind]
    refine tr_peek h4 fun e' s4 _ h5 h6 _ => ?_
    split
    · rw [wp_bind]
      refine tr_popP h5 h6 fun s5 _ h7 => ?_
      rw [wp_bind]
      refine tr_peek h7 fun e' s4 _ h5 h6 _ => ?_
      split
      · exact pushNode h5
      · exact setEmpty h5 h6
    · split
      · exact pushNode h5
      · exact fetchMappingEnd h5 h6
  · exact fetchMappingEnd h2 h3

theorem flowMappingValue {b : Bool} : wp True (flowMappingValue drive b) s (Shown drive s.tokens) := by
  unfold Parser.flowMappingValue
  rw [wp_bind]
  refine tr_peek (.nil _) fun e s2 _ h2 h3 _ => ?_
  split
  · exact setEmpty h2 h3
  · split
    · rw [wp_bind]
      refine tr_popP h2 h3 fun s3 _ h4 => ?_
      rw [wp_bind]
      refine tr_peek h4 fun e' s4 _ h5 h6 _ => ?_
      split
      · exact pushNode h5
      · exact setEmpty h5 h6
    · exact setEmpty h2 h3

theorem documentStart {i f : Bool} {fuel : Nat} : wp True (documentStart drive fuel i f) s (Shown drive s.tokens) := by
  unfold Parser.documentStart
  rw [wp_bind]
  have h0 : wp True (skipEndsIf drive fuel i) s fun _ s' => ∃ ends, Tr drive s.tokens ends s' ∧ (∀ t ∈ ends, t.marker = .DocumentEnd) := by
    unfold skipEndsIf
    split
    · exact ⟨[], .nil _, by simp⟩
    · exact wp_mono (skipDocumentEnds_tr (Pops.nil _) (by simp)) fun _ _ h => h.2
  refine wp_mono h0 ?_
  rintro _ s1 ⟨ends, h2, hends⟩
  rw [wp_bind]
  refine tr_peek h2 fun e s2 g1 g2 g3 _ => ?_
  dsimp only
  split
  · next hc =>
    simp only [Bool.and_eq_true, Bool.not_eq_true', Bool.or_eq_false_iff,
      decide_eq_false_iff_not] at hc
    obtain ⟨-, ⟨⟨hm1, hm2⟩, hm3⟩, hm4⟩ := hc
    rw [wp_bind]
    refine wp_mono (scanDocumentDirectives_none g2 g3 ⟨hm2, hm1⟩) ?_
    rintro ⟨a, b, d⟩ s3 ⟨k1, k2, k3, k4, k5⟩
    simp only [Prod.mk.injEq] at k4
    simp only [wp_bind, wp_pure, wp_setTop, wp_pushState, setDirectives, wp_modify]
    exact own (x := e) k2 (by simp [k3]) (List.Sublist.refl _) ⟨ends, [], [], by simp, hends, k5, by simp, by simp⟩ k4.1 k4.2.1
  · split
    · rw [wp_bind]
      refine wp_mono (scanDocumentDirectives_tr g2) ?_
      rintro ⟨a, b, d⟩ s3 ⟨k1, dirs, x, k2, k3, hx, hax⟩
      unfold documentMarker
      simp only [wp_bind]
      refine tr_peek k2 fun e' s4 l1 l2 l3 l4 => ?_
      have hx' : x ∈ ends ++ dirs ++ [e'] := by
        simp only [List.mem_append, Option.mem_toList, List.mem_singleton] at hx ⊢
        rcases hx with hx | hx
        · exact Or.inl hx
        · exact Or.inr (l4 _ hx).symm
      split
      · next hm =>
        rw [wp_bind]
        refine tr_popP l2 l3 fun s5 m1 m2 => ?_
        simp only [wp_pure, wp_setTop, wp_pushState, setDirectives, wp_modify]
        refine ⟨_, m2, fun e he => ?_⟩
        cases he
        refine ⟨⟨_, List.Sublist.refl _, ends, dirs, [e'], rfl, hends, k3, by simp, fun _ => ⟨e'.readAt, ?_⟩⟩, ?_⟩
        · obtain ⟨w, r⟩ := e'
          rcases w with w | l
          · cases w <;> simp_all [TokenEntry.marker, MaybeToken.marker, Marker.ofToken]
          · simp [TokenEntry.marker, MaybeToken.marker] at hm
        · rw [List.append_assoc]
          exact Marked.upto hx' hax rfl
      · simp
    · next hm =>
      have hm : e.marker = .StreamEnd := by simpa using hm
      split
      · rw [wp_bind]
        refine wp_mono (scanDocumentDirectives_none g2 g3 (by simp [hm])) ?_
        rintro ⟨a, b, d⟩ s3 ⟨k1, k2, k3, k4, k5⟩
        simp only [Prod.mk.injEq] at k4
        simp only [wp_bind, wp_pure, wp_setTop, setDirectives, wp_modify]
        exact own (x := e) k2 (by simp [k3]) (List.Sublist.refl _) ⟨ends, [], [], by simp, hends, k5, by simp, by simp⟩ k4.1 k4.2.1
      · simp only [wp_bind, wp_pure, wp_setTop]
        exact ⟨ends, g2, nofun⟩

theorem documentEnd : wp True (documentEnd drive) s (Shown drive s.tokens) := by
  unfold Parser.documentEnd implicitEnd
  rw [wp_bind]
  refine tr_peek (Pops.nil _) fun e s1 h1 h2 h3 _ => ?_
  rw [wp_bind]
  split
  · next hm =>
    rw [wp_bind]
    refine tr_popP h2 h3 fun s2 g1 g2 => ?_
    simp only [wp_bind, wp_setTop, wp_pure]
    refine own (x := e) g2 (by simp) (List.Sublist.refl _) ⟨by simp, fun _ => ⟨e.readAt, ?_⟩⟩ rfl rfl
    obtain ⟨w, r⟩ := e
    rcases w with w | l
    · cases w <;> simp_all [TokenEntry.marker, MaybeToken.marker, Marker.ofToken]
    · simp [TokenEntry.marker, MaybeToken.marker] at hm
  · simp only [wp_bind, wp_setTop, wp_pure]
    exact own (x := e) h2 (by simp [h3]) (List.nil_sublist _) ⟨by simp, by simp⟩ rfl rfl

theorem explicitDocumentContent : wp True (explicitDocumentContent drive) s (Shown drive s.tokens) := by
  unfold Parser.explicitDocumentContent
  rw [wp_bind]
  refine tr_peek (Pops.nil _) fun e s1 h1 h2 h3 _ => ?_
  split
  · simp only [wp_bind, wp_pure, wp_popState]
    exact ⟨[], h2, nofun⟩
  · exact after h2 node

theorem streamStart : wp True (streamStart drive) s (Shown drive s.tokens) := by
  unfold Parser.streamStart
  rw [wp_bind]
  refine tr_peek (Pops.nil _) fun e s1 h1 h2 h3 _ => ?_
  split
  · next hm =>
    obtain ⟨enc, hw⟩ := marker_streamStart hm
    rw [wp_bind]
    unfold consumeStreamStart
    rw [wp_bind]
    refine tr_popP h2 h3 fun s2 g1 g2 => ?_
    rw [hw]
    simp only [wp_pure, wp_bind, wp_setTop]
    refine own (x := e) g2 (by simp) (List.Sublist.refl _) ⟨e.readAt, ?_⟩ rfl rfl
    obtain ⟨w, r⟩ := e
    simp only at hw
    subst hw
    rfl
  · simp

theorem streamEnd : wp True (streamEnd drive) s (Shown drive s.tokens) := by
  unfold Parser.streamEnd
  rw [wp_bind, wp_get]
  split
  · exact ⟨[], .nil _, nofun⟩
  · rw [wp_bind]
    unfold consumeStreamEnd
    rw [wp_bind]
    refine tr_pop (Pops.nil _) fun e s1 h1 h2 _ => ?_
    split
    · next hw =>
      simp only [wp_pure, wp_bind, wp_modify]
      refine own (x := e) h2 (by simp) (List.Sublist.refl _) ⟨[], e.readAt, by simp, ?_⟩ rfl rfl
      obtain ⟨w, r⟩ := e
      simp only at hw
      subst hw
      rfl
    · simp

theorem stateTransition {fuel : Nat} : wp True (stateTransition drive fuel) s (Shown drive s.tokens) := by
  unfold Parser.stateTransition
  rw [wp_bind, wp_get]
  split
  · exact streamStart
  · exact documentStart
  · exact explicitDocumentContent
  · exact documentEnd
  · exact node
  · exact node
  · exact blockSequenceEntry
  · exact blockMappingKey
  · exact blockMappingValue
  · exact flowSequenceEntry
  · exact flowSequenceEntryMappingKey
  · exact flowSequenceEntryMappingValue
  · exact flowSequenceEntryMappingEnd
  · exact flowMappingKey
  · exact flowMappingValue
  · exact streamEnd

theorem nextEventLoop {fuel n : Nat} : wp True (nextEventLoop drive fuel n) s (Shown drive s.tokens) := by
  induction n generalizing s with
  | zero => simp [Parser.nextEventLoop]
  | succ n ih =>
    unfold Parser.nextEventLoop
    rw [wp_bind, wp_get]
    split
    · exact ⟨[], .nil _, nofun⟩
    · rw [wp_bind]
      refine wp_mono stateTransition ?_
      intro ev s1 h1
      cases ev with
      | some e => exact h1
      | none =>
        obtain ⟨ts, h2, -⟩ := h1
        exact after h2 ih

/-- A call that returns an event, whatever happened before. -/
theorem call {fuel : Nat} {s' : PS σ} {ev : Option Event} (h : Parser.nextEvent drive fuel s = (.ok ev, s')) : Shown drive s.tokens ev s' :=
  wp_ok (Q := Shown drive s.tokens) nextEventLoop h

end Yary.Shown
