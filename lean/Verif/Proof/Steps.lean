import Verif.Proof.Peek
import Verif.Spec.Grammar

/-! The control flow of the parser, whatever tokens it sees: each handler refines one clause of
`Step`. -/

namespace Yary

open Spec PM

/-- What `node` may do to the state machine, with the event it produces. -/
inductive NodeStep (k : NodeKind) (m : StateMachine) : KEv → StateMachine → Prop where
  | alias : NodeStep k m .alias m.pop
  | scalar : NodeStep k m (.scalar k) m.pop
  | seqBlock : NodeStep k m (.seqStart k) (m.setTop (.BlockSequenceEntry true))
  | seqFlow : NodeStep k m (.seqStart k) (m.setTop (.FlowSequenceEntry true))
  | mapBlock : NodeStep k m (.mapStart k) (m.setTop (.BlockMappingKey true))
  | mapFlow : NodeStep k m (.mapStart k) (m.setTop (.FlowMappingKey true))

/-- What one transition may do: the state machine and `done` before and after, and the event. -/
inductive Step : StateMachine → Option KEv → StateMachine → Bool → Prop where
  | streamStart {ss} :
      Step ⟨.StreamStart, ss⟩ (some .streamStart) ⟨.DocumentStart true true, ss⟩ false
  | docImplicit {i f ss} :
      Step ⟨.DocumentStart i f, ss⟩ (some .docStart) ⟨.BlockNode, .DocumentEnd :: ss⟩ false
  | docExplicit {i f ss} :
      Step ⟨.DocumentStart i f, ss⟩ (some .docStart) ⟨.DocumentContent, .DocumentEnd :: ss⟩ false
  | docFirst {i ss} :
      Step ⟨.DocumentStart i true, ss⟩ (some .docStart) ⟨.DocumentEnd, ss⟩ false
  | docNone {i ss} :
      Step ⟨.DocumentStart i false, ss⟩ none ⟨.StreamEnd, ss⟩ false
  | docEnd {i ss} :
      Step ⟨.DocumentEnd, ss⟩ (some .docEnd) ⟨.DocumentStart i false, ss⟩ false
  | contentEmpty {ss} :
      Step ⟨.DocumentContent, ss⟩ none (StateMachine.pop ⟨.DocumentContent, ss⟩) false
  | content {ss e m'} (h : NodeStep .Root ⟨.DocumentContent, ss⟩ e m') :
      Step ⟨.DocumentContent, ss⟩ (some e) m' false
  | blockNode {ss e m'} (h : NodeStep .Root ⟨.BlockNode, ss⟩ e m') :
      Step ⟨.BlockNode, ss⟩ (some e) m' false
  | flowNode {ss e m'} (h : NodeStep .Root ⟨.FlowNode, ss⟩ e m') :
      Step ⟨.FlowNode, ss⟩ (some e) m' false
  | bseqEmpty {f ss} :
      Step ⟨.BlockSequenceEntry f, ss⟩ (some (.scalar .Entry)) ⟨.BlockSequenceEntry false, ss⟩ false
  | bseqNode {f ss e m'}
      (h : NodeStep .Entry ⟨.BlockSequenceEntry f, .BlockSequenceEntry false :: ss⟩ e m') :
      Step ⟨.BlockSequenceEntry f, ss⟩ (some e) m' false
  | bseqEnd {f ss} :
      Step ⟨.BlockSequenceEntry f, ss⟩ (some .seqEnd)
        (StateMachine.pop ⟨.BlockSequenceEntry f, ss⟩) false
  | bkeyEmpty {f ss} :
      Step ⟨.BlockMappingKey f, ss⟩ (some (.scalar .Key)) ⟨.BlockMappingValue, ss⟩ false
  | bkeyNode {f ss e m'}
      (h : NodeStep .Key ⟨.BlockMappingKey f, .BlockMappingValue :: ss⟩ e m') :
      Step ⟨.BlockMappingKey f, ss⟩ (some e) m' false
  | bkeyEnd {f ss} :
      Step ⟨.BlockMappingKey f, ss⟩ (some .mapEnd) (StateMachine.pop ⟨.BlockMappingKey f, ss⟩) false
  | bvalEmpty {ss} :
      Step ⟨.BlockMappingValue, ss⟩ (some (.scalar .Value)) ⟨.BlockMappingKey false, ss⟩ false
  | bvalNode {ss e m'}
      (h : NodeStep .Value ⟨.BlockMappingValue, .BlockMappingKey false :: ss⟩ e m') :
      Step ⟨.BlockMappingValue, ss⟩ (some e) m' false
  | fseqPair {f ss} :
      Step ⟨.FlowSequenceEntry f, ss⟩ (some (.mapStart .Entry)) ⟨.FlowSequenceMappingKey, ss⟩ false
  | fseqNode {f ss e m'}
      (h : NodeStep .Entry ⟨.FlowSequenceEntry f, .FlowSequenceEntry false :: ss⟩ e m') :
      Step ⟨.FlowSequenceEntry f, ss⟩ (some e) m' false
  | fseqEnd {f ss} :
      Step ⟨.FlowSequenceEntry f, ss⟩ (some .seqEnd)
        (StateMachine.pop ⟨.FlowSequenceEntry f, ss⟩) false
  | fsmKeyEmpty {ss} :
      Step ⟨.FlowSequenceMappingKey, ss⟩ (some (.scalar .Key)) ⟨.FlowSequenceMappingValue, ss⟩ false
  | fsmKeyNode {ss e m'}
      (h : NodeStep .Key ⟨.FlowSequenceMappingKey, .FlowSequenceMappingValue :: ss⟩ e m') :
      Step ⟨.FlowSequenceMappingKey, ss⟩ (some e) m' false
  | fsmValEmpty {ss} :
      Step ⟨.FlowSequenceMappingValue, ss⟩ (some (.scalar .Value)) ⟨.FlowSequenceMappingEnd, ss⟩ false
  | fsmValNode {ss e m'}
      (h : NodeStep .Value ⟨.FlowSequenceMappingValue, .FlowSequenceMappingEnd :: ss⟩ e m') :
      Step ⟨.FlowSequenceMappingValue, ss⟩ (some e) m' false
  | fsmEnd {ss} :
      Step ⟨.FlowSequenceMappingEnd, ss⟩ (some .mapEnd) ⟨.FlowSequenceEntry false, ss⟩ false
  | fkeyEmpty {f ss} :
      Step ⟨.FlowMappingKey f, ss⟩ (some (.scalar .Key)) ⟨.FlowMappingValue false, ss⟩ false
  | fkeyNode {f b ss e m'}
      (h : NodeStep .Key ⟨.FlowMappingKey f, .FlowMappingValue b :: ss⟩ e m') :
      Step ⟨.FlowMappingKey f, ss⟩ (some e) m' false
  | fkeyEnd {f ss} :
      Step ⟨.FlowMappingKey f, ss⟩ (some .mapEnd) (StateMachine.pop ⟨.FlowMappingKey f, ss⟩) false
  | fvalEmpty {b ss} :
      Step ⟨.FlowMappingValue b, ss⟩ (some (.scalar .Value)) ⟨.FlowMappingKey false, ss⟩ false
  | fvalNode {b ss e m'}
      (h : NodeStep .Value ⟨.FlowMappingValue b, .FlowMappingKey false :: ss⟩ e m') :
      Step ⟨.FlowMappingValue b, ss⟩ (some e) m' false
  | streamEnd {ss} :
      Step ⟨.StreamEnd, ss⟩ (some .streamEnd) ⟨.StreamEnd, ss⟩ true

/-- The tag of a node event can be resolved with the given map, and is not the non-specific tag
`!` on a scalar. -/
def tagOk (tags : TagMap) : EventData → Prop
  | .Scalar n _ => ∀ h s, n.tag = some (h, s) →
      (tags.get h).isSome ∧ ¬ (h = bytes! "!" ∧ s = [])
  | .SequenceStart n => ∀ h s, n.tag = some (h, s) → (tags.get h).isSome
  | .MappingStart n => ∀ h s, n.tag = some (h, s) → (tags.get h).isSome
  | _ => True

/-- Directives after an event. -/
def dirsAfter (d : Directives) : Option Event → Directives
  | some ⟨_, _, .DocumentStart d' _⟩ => d'
  | _ => d

/-- A transition of the parser: control flow, directives and tags. -/
structure Trans (p : Parser) (ev : Option Event) (p' : Parser) : Prop where
  step : Step p.state (ev.map fun e => KEv.of e.data) p'.state p'.done
  dirs : p'.directives = dirsAfter p.directives ev
  tags : ∀ e, ev = some e → tagOk p.directives.tags e.data

namespace Parser

variable {σ : Type} {drive : Drive σ} {pan : Prop}

theorem marker_streamStart {e : TokenEntry} (h : e.marker = .StreamStart) :
    ∃ enc, e.wrap = .Token (.StreamStart enc) := by
  obtain ⟨w, r⟩ := e
  rcases w with t | l
  · cases t <;> simp_all [TokenEntry.marker, MaybeToken.marker, Marker.ofToken]
    exact ⟨.UTF8, trivial⟩
  · simp [TokenEntry.marker, MaybeToken.marker] at h

theorem marker_version {e : TokenEntry} (h : e.marker = .VersionDirective) :
    ∃ a b, e.wrap = .Token (.VersionDirective a b) := by
  obtain ⟨w, r⟩ := e
  rcases w with t | l
  · cases t <;> simp_all [TokenEntry.marker, MaybeToken.marker, Marker.ofToken]
  · simp [TokenEntry.marker, MaybeToken.marker] at h

theorem marker_tagDirective {e : TokenEntry} (h : e.marker = .TagDirective) :
    ∃ a b, e.wrap = .Token (.TagDirective a b) := by
  obtain ⟨w, r⟩ := e
  rcases w with t | l
  · cases t <;> simp_all [TokenEntry.marker, MaybeToken.marker, Marker.ofToken]
  · simp [TokenEntry.marker, MaybeToken.marker] at h

theorem marker_alias {e : TokenEntry} (h : e.marker = .Alias) :
    ∃ a, e.wrap = .Token (.Alias a) := by
  obtain ⟨w, r⟩ := e
  rcases w with t | l
  · cases t <;> simp_all [TokenEntry.marker, MaybeToken.marker, Marker.ofToken]
  · simp [TokenEntry.marker, MaybeToken.marker] at h

theorem marker_anchor {e : TokenEntry} (h : e.marker = .Anchor) :
    ∃ a, e.wrap = .Token (.Anchor a) := by
  obtain ⟨w, r⟩ := e
  rcases w with t | l
  · cases t <;> simp_all [TokenEntry.marker, MaybeToken.marker, Marker.ofToken]
  · simp [TokenEntry.marker, MaybeToken.marker] at h

theorem marker_tag {e : TokenEntry} (h : e.marker = .Tag) :
    ∃ a b, e.wrap = .Token (.Tag a b) := by
  obtain ⟨w, r⟩ := e
  rcases w with t | l
  · cases t <;> simp_all [TokenEntry.marker, MaybeToken.marker, Marker.ofToken]
  · simp [TokenEntry.marker, MaybeToken.marker] at h

theorem marker_scalar {e : TokenEntry} (h : e.marker = .Scalar) :
    (∃ d st, e.wrap = .Token (.Scalar d st)) ∨ ∃ l, e.wrap = .Deferred l := by
  obtain ⟨w, r⟩ := e
  rcases w with t | l
  · cases t <;> simp_all [TokenEntry.marker, MaybeToken.marker, Marker.ofToken]
  · simp

theorem marker_streamEnd {e : TokenEntry} (h : e.marker = .StreamEnd) :
    e.wrap = .Token .StreamEnd := by
  obtain ⟨w, r⟩ := e
  rcases w with t | l
  · cases t <;> simp_all [TokenEntry.marker, MaybeToken.marker, Marker.ofToken]
  · simp [TokenEntry.marker, MaybeToken.marker] at h

/-- The parser part of the state is `p`. -/
abbrev Same (p : Parser) (s : PS σ) : Prop := s.parser = p

theorem wp_fetchAnchor {s : PS σ} (hs : SrcOk pan drive) {n : Nat}
    {Q : Nat × Option Str → PS σ → Prop}
    (h : ∀ r t, Q r { s with tokens := t }) : wp pan (fetchAnchor drive n) s Q := by
  unfold fetchAnchor
  rw [wp_bind]
  refine wp_peekMaybe hs fun e t he => ?_
  cases e with
  | none => simpa using h _ _
  | some e =>
    have hp := PeekReader.peek_peeked he
    simp only
    split
    · next hm =>
      obtain ⟨a, hw⟩ := marker_anchor hm
      rw [wp_bind]
      unfold consumeAnchor
      rw [wp_bind]
      refine wp_pop_peeked hp ?_
      simpa [hw] using h _ _
    · simpa using h _ _

theorem wp_fetchTag {s : PS σ} (hs : SrcOk pan drive) {n : Nat}
    {Q : Nat × Option (Str × Str) → PS σ → Prop}
    (h : ∀ r t, Q r { s with tokens := t }) : wp pan (fetchTag drive n) s Q := by
  unfold fetchTag
  rw [wp_bind]
  refine wp_peekMaybe hs fun e t he => ?_
  cases e with
  | none => simpa using h _ _
  | some e =>
    have hp := PeekReader.peek_peeked he
    simp only
    split
    · next hm =>
      obtain ⟨a, b, hw⟩ := marker_tag hm
      rw [wp_bind]
      unfold consumeTag
      rw [wp_bind]
      refine wp_pop_peeked hp ?_
      simpa [hw] using h _ _
    · simpa using h _ _

theorem wp_nodeProperties {s : PS σ} (hs : SrcOk pan drive) {n : Nat} {m : Marker}
    {Q : Nat × Option Str × Option (Str × Str) → PS σ → Prop}
    (h : ∀ r t, Q r { s with tokens := t }) : wp pan (nodeProperties drive m n) s Q := by
  unfold nodeProperties
  split
  · rw [wp_bind]
    refine wp_fetchAnchor hs fun r t => ?_
    rw [wp_bind]
    exact wp_fetchTag hs fun r' t' => by simpa using h _ _
  · rw [wp_bind]
    refine wp_fetchTag hs fun r t => ?_
    rw [wp_bind]
    exact wp_fetchAnchor hs fun r' t' => by simpa using h _ _
  · simpa using h _ s.tokens

theorem nodeContent_spec {s : PS σ} (hs : SrcOk pan drive) {block : Bool} {k : NodeKind}
    {n : Nat} {anchor : Option Str} {tag : Option (Str × Str)} :
    wp pan (nodeContent drive block k n anchor tag) s fun ev s' =>
      NodeStep k s.parser.state (KEv.of ev.data) s'.parser.state ∧
      s'.parser.directives = s.parser.directives ∧ s'.parser.done = s.parser.done ∧
      ((∃ node c, ev.data = .Scalar node c) ∨ (∃ node, ev.data = .SequenceStart node) ∨
        ∃ node, ev.data = .MappingStart node) := by
  unfold nodeContent
  rw [wp_bind]
  refine wp_peek hs fun e t he => ?_
  have hp := PeekReader.peek_peeked he
  simp only
  split
  · simp only [wp_bind, wp_setTop, wp_pure]
    exact ⟨.seqFlow, by simp⟩
  · simp only [wp_bind, wp_setTop, wp_pure]
    exact ⟨.mapFlow, by simp⟩
  · split
    · simp only [wp_bind, wp_setTop, wp_pure]
      exact ⟨.seqBlock, by simp⟩
    · split
      · simp only [wp_bind, wp_popState, wp_pure]
        exact ⟨.scalar, by simp⟩
      · simp
  · split
    · simp only [wp_bind, wp_setTop, wp_pure]
      exact ⟨.mapBlock, by simp⟩
    · split
      · simp only [wp_bind, wp_popState, wp_pure]
        exact ⟨.scalar, by simp⟩
      · simp
  · next hm =>
    rw [wp_bind]
    unfold consumeScalar
    rw [wp_bind]
    refine wp_pop_peeked hp ?_
    rcases marker_scalar hm with ⟨d, st, hw⟩ | ⟨l, hw⟩
    · rw [hw]
      simp only [wp_bind, wp_popState, wp_pure]
      exact ⟨.scalar, by simp⟩
    · rw [hw]
      simp only [wp_bind, wp_popState, wp_pure]
      exact ⟨.scalar, by simp⟩
  · split
    · simp only [wp_bind, wp_popState, wp_pure]
      exact ⟨.scalar, by simp⟩
    · simp

theorem validateTag_ok {tags : TagMap} {tag : Option (Str × Str)} {sc : Bool}
    {r : Option (Str × Str)} (h : validateTag tags tag sc = .ok r) :
    ∀ a b, r = some (a, b) → (tags.get a).isSome ∧ (sc = true → ¬ (a = bytes! "!" ∧ b = [])) := by
  intro a b hr
  subst hr
  unfold validateTag at h
  split at h
  · simp at h
  · next handle suffix =>
    simp only at h
    split at h
    · simp at h
    · next hc =>
      split at h
      · simp at h
      · next hn =>
        simp only [Out.ok.injEq, Option.some.injEq, Prod.mk.injEq] at h
        obtain ⟨rfl, rfl⟩ := h
        refine ⟨by simpa [Option.isSome_iff_ne_none] using hn, ?_⟩
        intro hsc hbad
        apply hc
        simp [hsc, hbad.1, hbad.2]

theorem validateEventTag_ok {tags : TagMap} {e e' : Event}
    (h : validateEventTag tags e = .ok e') :
    KEv.of e'.data = KEv.of e.data ∧ tagOk tags e'.data ∧
      (dirsAfter d (some e') = dirsAfter d (some e)) := by
  unfold validateEventTag at h
  obtain ⟨es, ee, ed⟩ := e
  cases ed with
  | Scalar node c =>
    simp only [Out.bind_eq_ok] at h
    obtain ⟨r, hr, he⟩ := h
    simp only [Out.pure_eq, Out.ok.injEq] at he
    subst he
    refine ⟨rfl, ?_, rfl⟩
    intro a b hab
    have := validateTag_ok hr a b hab
    exact ⟨this.1, this.2 rfl⟩
  | SequenceStart node =>
    simp only [Out.bind_eq_ok] at h
    obtain ⟨r, hr, he⟩ := h
    simp only [Out.pure_eq, Out.ok.injEq] at he
    subst he
    exact ⟨rfl, fun a b hab => (validateTag_ok hr a b hab).1, rfl⟩
  | MappingStart node =>
    simp only [Out.bind_eq_ok] at h
    obtain ⟨r, hr, he⟩ := h
    simp only [Out.pure_eq, Out.ok.injEq] at he
    subst he
    exact ⟨rfl, fun a b hab => (validateTag_ok hr a b hab).1, rfl⟩
  | _ =>
    simp only [Out.pure_eq, Out.ok.injEq] at h
    subst h
    exact ⟨rfl, trivial, rfl⟩

theorem validateEventTag_panic {tags : TagMap} {e : Event} :
    validateEventTag tags e ≠ .panic := by
  have hv : ∀ t b, validateTag tags t b ≠ .panic := by
    intro t b
    unfold validateTag
    split
    · simp
    · dsimp only
      split
      · simp
      · split <;> simp
  unfold validateEventTag
  split <;> simp [Out.bind_eq_panic, hv]

theorem nodeEvent_spec {s : PS σ} (hs : SrcOk pan drive) {block : Bool} {k : NodeKind} :
    wp pan (nodeEvent drive block k) s fun ev s' =>
      NodeStep k s.parser.state (KEv.of ev.data) s'.parser.state ∧
      s'.parser.directives = s.parser.directives ∧ s'.parser.done = s.parser.done ∧
      dirsAfter s.parser.directives (some ev) = s.parser.directives := by
  unfold nodeEvent
  rw [wp_bind]
  refine wp_peek hs fun e t he => ?_
  have hp := PeekReader.peek_peeked he
  split
  · next hm =>
    obtain ⟨a, hw⟩ := marker_alias hm
    rw [wp_bind, wp_popState, wp_bind]
    unfold consumeAlias
    rw [wp_bind]
    refine wp_pop_peeked hp ?_
    rw [hw]
    simp only [wp_pure]
    exact ⟨.alias, trivial, trivial, rfl⟩
  · rw [wp_bind]
    refine wp_nodeProperties hs fun r t' => ?_
    refine wp_mono (nodeContent_spec hs) ?_
    rintro ev s' ⟨h1, h2, h3, h4⟩
    refine ⟨h1, h2, h3, ?_⟩
    obtain ⟨a, b, c⟩ := ev
    rcases h4 with ⟨n, c, h⟩ | ⟨n, h⟩ | ⟨n, h⟩ <;> (simp only at h; subst h; rfl)

theorem node_spec {s : PS σ} (hs : SrcOk pan drive) {block : Bool} {k : NodeKind} :
    wp pan (node drive block k) s fun ev s' => ∃ e, ev = some e ∧
      NodeStep k s.parser.state (KEv.of e.data) s'.parser.state ∧
      s'.parser.directives = s.parser.directives ∧ s'.parser.done = s.parser.done ∧
      tagOk s.parser.directives.tags e.data ∧
      dirsAfter s.parser.directives (some e) = s.parser.directives := by
  unfold node
  rw [wp_bind]
  refine wp_mono (nodeEvent_spec hs) ?_
  rintro ev s' ⟨h1, h2, h3, h4⟩
  rw [wp_bind, wp_get, wp_bind, wp_lift]
  cases hv : validateEventTag s'.parser.directives.tags ev with
  | ok e' =>
    obtain ⟨g1, g2, g3⟩ := validateEventTag_ok (d := s.parser.directives) hv
    simp only [wp_pure]
    refine ⟨e', rfl, ?_, h2, h3, ?_, ?_⟩
    · rw [g1]; exact h1
    · rw [← h2]; exact g2
    · rw [g3]; exact h4
  | err => trivial
  | panic => exact absurd hv validateEventTag_panic
  | diverge => trivial

theorem wp_skipDocumentEnds {s : PS σ} (hs : SrcOk pan drive) {fuel : Nat}
    {Q : Unit → PS σ → Prop} (h : ∀ t, Q () { s with tokens := t }) :
    wp pan (skipDocumentEnds drive fuel) s Q := by
  induction fuel generalizing s with
  | zero => simp [skipDocumentEnds]
  | succ n ih =>
    unfold skipDocumentEnds
    rw [wp_bind]
    refine wp_peek hs fun e t he => ?_
    split
    · rw [wp_bind]
      refine wp_pop hs fun e' t' _ => ?_
      exact ih fun t'' => h t''
    · simpa using h t

theorem wp_scanDirectivesLoop {s : PS σ} (hs : SrcOk pan drive) {fuel : Nat}
    {Q : Nat × Directives → PS σ → Prop} (h : ∀ r t, Q r { parser := s.parser, tokens := t })
    {stop : Nat} {seen : Bool} {d : Directives} :
    wp pan (scanDirectivesLoop drive fuel stop seen d) s Q := by
  induction fuel generalizing s stop seen d with
  | zero => simp [scanDirectivesLoop]
  | succ n ih =>
    unfold scanDirectivesLoop
    rw [wp_bind]
    refine wp_peek hs fun e t he => ?_
    have hp := PeekReader.peek_peeked he
    split
    · next hm =>
      split
      · obtain ⟨a, b, hw⟩ := marker_version hm
        rw [wp_bind]
        unfold consumeVersion
        rw [wp_bind]
        refine wp_pop_peeked hp ?_
        rw [hw]
        simp only [wp_pure]
        apply ih
        exact fun r t => h r t
      · simp
    · next hm =>
      obtain ⟨a, b, hw⟩ := marker_tagDirective hm
      rw [wp_bind]
      unfold consumeTagDirective
      rw [wp_bind]
      refine wp_pop_peeked hp ?_
      rw [hw]
      simp only [wp_pure]
      split
      · simp
      · apply ih
        exact fun r t => h r t
    · simpa using h _ _

theorem wp_scanDocumentDirectives {s : PS σ} (hs : SrcOk pan drive) {fuel : Nat}
    {Q : Nat × Nat × Directives → PS σ → Prop} (h : ∀ r t, Q r { s with tokens := t }) :
    wp pan (scanDocumentDirectives drive fuel) s Q := by
  unfold scanDocumentDirectives
  rw [wp_bind]
  refine wp_peek hs fun e t he => ?_
  rw [wp_bind]
  refine wp_scanDirectivesLoop hs fun r t => ?_
  simpa using h _ _

theorem streamStart_spec {s : PS σ} (hs : SrcOk pan drive) {ss : List State}
    (hst : s.parser.state = ⟨.StreamStart, ss⟩) (hd : s.parser.done = false) :
    wp pan (streamStart drive) s fun ev s' => Trans s.parser ev s'.parser := by
  unfold streamStart
  rw [wp_bind]
  refine wp_peek hs fun e t he => ?_
  have hp := PeekReader.peek_peeked he
  split
  · next hm =>
    obtain ⟨a, hw⟩ := marker_streamStart hm
    rw [wp_bind]
    unfold consumeStreamStart
    rw [wp_bind]
    refine wp_pop_peeked hp ?_
    rw [hw]
    simp only [wp_bind, wp_pure, wp_setTop]
    refine ⟨?_, rfl, ?_⟩
    · simp only [hst, hd, Option.map_some]
      exact .streamStart
    · rintro _ ⟨⟩; trivial
  · simp

theorem wp_skipEndsIf {s : PS σ} (hs : SrcOk pan drive) {fuel : Nat} {i : Bool}
    {Q : Unit → PS σ → Prop} (h : ∀ t, Q () { s with tokens := t }) :
    wp pan (skipEndsIf drive fuel i) s Q := by
  unfold skipEndsIf
  split
  · simpa using h s.tokens
  · exact wp_skipDocumentEnds hs h

theorem wp_documentMarker {s : PS σ} (hs : SrcOk pan drive)
    {Q : Nat → PS σ → Prop} (h : ∀ n t, Q n { s with tokens := t }) :
    wp pan (documentMarker drive) s Q := by
  unfold documentMarker
  rw [wp_bind]
  refine wp_peek hs fun e t he => ?_
  split
  · rw [wp_bind]
    refine wp_pop hs fun e' t' _ => ?_
    simpa using h _ _
  · simp

theorem documentStart_spec {s : PS σ} (hs : SrcOk pan drive) {ss : List State} {fuel : Nat}
    {implicit first : Bool}
    (hst : s.parser.state = ⟨.DocumentStart implicit first, ss⟩) (hd : s.parser.done = false) :
    wp pan (documentStart drive fuel implicit first) s
      fun ev s' => Trans s.parser ev s'.parser := by
  unfold documentStart
  rw [wp_bind]
  refine wp_skipEndsIf hs fun t => ?_
  rw [wp_bind]
  refine wp_peek hs fun e t he => ?_
  dsimp only
  split
  · rw [wp_bind]
    refine wp_scanDocumentDirectives hs fun r t' => ?_
    simp only [wp_bind, wp_pure, wp_setTop, wp_pushState, setDirectives, wp_modify]
    refine ⟨?_, rfl, ?_⟩
    · simp only [hst, hd, Option.map_some]
      exact .docImplicit
    · rintro _ ⟨⟩; trivial
  · split
    · rw [wp_bind]
      refine wp_scanDocumentDirectives hs fun r t' => ?_
      simp only [wp_bind]
      refine wp_documentMarker hs fun n t' => ?_
      simp only [wp_pure, wp_setTop, wp_pushState, setDirectives, wp_modify]
      refine ⟨?_, rfl, ?_⟩
      · simp only [hst, hd, Option.map_some]
        exact .docExplicit
      · rintro _ ⟨⟩; trivial
    · split
      · next hf =>
        rw [wp_bind]
        refine wp_scanDocumentDirectives hs fun r t' => ?_
        simp only [wp_bind, wp_pure, wp_setTop, setDirectives, wp_modify]
        refine ⟨?_, rfl, ?_⟩
        · simp only [hst, hd, Option.map_some, hf]
          exact .docFirst
        · rintro _ ⟨⟩; trivial
      · next hf =>
        simp only [wp_bind, wp_pure, wp_setTop]
        refine ⟨?_, rfl, ?_⟩
        · have : first = false := by simpa using hf
          simp only [hst, hd, Option.map_none, this]
          exact .docNone
        · simp

theorem documentEnd_spec {s : PS σ} (hs : SrcOk pan drive) {ss : List State}
    (hst : s.parser.state = ⟨.DocumentEnd, ss⟩) (hd : s.parser.done = false) :
    wp pan (documentEnd drive) s fun ev s' => Trans s.parser ev s'.parser := by
  unfold documentEnd implicitEnd
  rw [wp_bind]
  refine wp_peek hs fun e t he => ?_
  have hp := PeekReader.peek_peeked he
  rw [wp_bind]
  split
  · rw [wp_bind]
    refine wp_pop_peeked hp ?_
    simp only [wp_bind, wp_pure, wp_setTop]
    refine ⟨?_, rfl, ?_⟩
    · simp only [hst, hd, Option.map_some]
      exact .docEnd
    · rintro _ ⟨⟩; trivial
  · simp only [wp_bind, wp_pure, wp_setTop]
    refine ⟨?_, rfl, ?_⟩
    · simp only [hst, hd, Option.map_some]
      exact .docEnd
    · rintro _ ⟨⟩; trivial

theorem wp_popFirst {s : PS σ} (hs : SrcOk pan drive) {first : Bool}
    {Q : Unit → PS σ → Prop} (h : ∀ t, Q () { s with tokens := t }) :
    wp pan (popFirst drive first) s Q := by
  unfold popFirst
  split
  · rw [wp_bind]
    exact wp_pop hs fun e t _ => by simpa using h t
  · simpa using h s.tokens

theorem wp_peekPopFirst {s : PS σ} (hs : SrcOk pan drive) {first : Bool}
    {Q : Unit → PS σ → Prop} (h : ∀ t, Q () { s with tokens := t }) :
    wp pan (peekPopFirst drive first) s Q := by
  unfold peekPopFirst
  split
  · rw [wp_bind]
    refine wp_peek hs fun e t _ => ?_
    rw [wp_bind]
    exact wp_pop hs fun e t _ => by simpa using h t
  · simpa using h s.tokens

theorem wp_popFlowEntry {s : PS σ} (hs : SrcOk pan drive) {first : Bool} {e : TokenEntry}
    {err : ParseError} {Q : Unit → PS σ → Prop} (h : ∀ t, Q () { s with tokens := t }) :
    wp pan (popFlowEntry drive first e err) s Q := by
  unfold popFlowEntry
  split
  · simpa using h s.tokens
  · split
    · rw [wp_bind]
      exact wp_pop hs fun e t _ => by simpa using h t
    · simp

theorem wp_flowPairHasValue {s : PS σ} (hs : SrcOk pan drive) {e : TokenEntry}
    {Q : Bool → PS σ → Prop} (h : ∀ b t, Q b { s with tokens := t }) :
    wp pan (flowPairHasValue drive e) s Q := by
  unfold flowPairHasValue
  split
  · rw [wp_bind]
    refine wp_pop hs fun e t _ => ?_
    rw [wp_bind]
    exact wp_peek hs fun e t _ => by simpa using h _ t
  · simpa using h _ s.tokens

/-- Use `node_spec` after a state push. -/
theorem wp_node {s : PS σ} {p : Parser} (hs : SrcOk pan drive) {block : Bool} {k : NodeKind}
    (hdir : s.parser.directives = p.directives) (hd : s.parser.done = false)
    (h : ∀ e m', NodeStep k s.parser.state e m' → Step p.state (some e) m' false) :
    wp pan (node drive block k) s fun ev s' => Trans p ev s'.parser := by
  refine wp_mono (node_spec hs) ?_
  rintro ev s' ⟨e, rfl, h1, h2, h3, h4, h5⟩
  refine ⟨?_, ?_, ?_⟩
  · rw [h3, hd]
    exact h _ _ h1
  · rw [h2, hdir]
    rw [hdir] at h5
    exact h5.symm
  · rintro _ ⟨⟩
    rw [← hdir]
    exact h4

/-- A transition that neither touches directives nor produces a tagged node. -/
theorem trans_simple {p p' : Parser} {ev : Event} (hst : Step p.state (some (KEv.of ev.data)) p'.state p'.done)
    (hdir : p'.directives = p.directives) (hds : dirsAfter p.directives (some ev) = p.directives)
    (ht : tagOk p.directives.tags ev.data) : Trans p (some ev) p' := by
  refine ⟨hst, by rw [hdir, hds], ?_⟩
  rintro _ ⟨⟩
  exact ht

theorem tagOk_emptyScalar {tags : TagMap} {n : Nat} {k : NodeKind} :
    tagOk tags (emptyScalar n k).data := by
  intro a b h
  simp at h

theorem explicitDocumentContent_spec {s : PS σ} (hs : SrcOk pan drive) {ss : List State}
    (hst : s.parser.state = ⟨.DocumentContent, ss⟩) (hd : s.parser.done = false) :
    wp pan (explicitDocumentContent drive) s fun ev s' => Trans s.parser ev s'.parser := by
  unfold explicitDocumentContent
  rw [wp_bind]
  refine wp_peek hs fun e t he => ?_
  split
  · simp only [wp_bind, wp_pure, wp_popState]
    refine ⟨?_, rfl, by simp⟩
    simp only [hst, hd, Option.map_none]
    exact .contentEmpty
  · refine wp_node hs rfl hd fun e m' h => ?_
    rw [hst] at h ⊢
    exact .content h

theorem blockSequenceEntry_spec {s : PS σ} (hs : SrcOk pan drive) {ss : List State} {first : Bool}
    (hst : s.parser.state = ⟨.BlockSequenceEntry first, ss⟩) (hd : s.parser.done = false) :
    wp pan (blockSequenceEntry drive first) s fun ev s' => Trans s.parser ev s'.parser := by
  unfold blockSequenceEntry
  rw [wp_bind]
  refine wp_popFirst hs fun t => ?_
  rw [wp_bind]
  refine wp_peek hs fun e t he => ?_
  have hp := PeekReader.peek_peeked he
  split
  · rw [wp_bind]
    refine wp_pop_peeked hp ?_
    rw [wp_bind]
    refine wp_peek hs fun e' t' he' => ?_
    split
    · simp only [wp_bind, wp_pure, wp_setTop]
      refine trans_simple ?_ rfl rfl tagOk_emptyScalar
      simp only [hst, hd]
      exact .bseqEmpty
    · rw [wp_bind, wp_pushState]
      refine wp_node hs rfl hd fun e m' h => ?_
      simp only [hst, StateMachine.push] at h ⊢
      exact .bseqNode h
  · rw [wp_bind]
    refine wp_pop_peeked hp ?_
    simp only [wp_bind, wp_pure, wp_popState]
    refine trans_simple ?_ rfl rfl trivial
    simp only [hst, hd]
    exact .bseqEnd
  · simp

theorem blockMappingKey_spec {s : PS σ} (hs : SrcOk pan drive) {ss : List State} {first : Bool}
    (hst : s.parser.state = ⟨.BlockMappingKey first, ss⟩) (hd : s.parser.done = false) :
    wp pan (blockMappingKey drive first) s fun ev s' => Trans s.parser ev s'.parser := by
  unfold blockMappingKey
  rw [wp_bind]
  refine wp_peekPopFirst hs fun t => ?_
  rw [wp_bind]
  refine wp_peek hs fun e t he => ?_
  have hp := PeekReader.peek_peeked he
  split
  · rw [wp_bind]
    refine wp_pop_peeked hp ?_
    rw [wp_bind]
    refine wp_peek hs fun e' t' he' => ?_
    split
    · rw [wp_bind, wp_pushState]
      refine wp_node hs rfl hd fun e m' h => ?_
      simp only [hst, StateMachine.push] at h ⊢
      exact .bkeyNode h
    · simp only [wp_bind, wp_pure, wp_setTop]
      refine trans_simple ?_ rfl rfl tagOk_emptyScalar
      simp only [hst, hd]
      exact .bkeyEmpty
  · rw [wp_bind]
    refine wp_pop_peeked hp ?_
    simp only [wp_bind, wp_pure, wp_popState]
    refine trans_simple ?_ rfl rfl trivial
    simp only [hst, hd]
    exact .bkeyEnd
  · simp

theorem blockMappingValue_spec {s : PS σ} (hs : SrcOk pan drive) {ss : List State}
    (hst : s.parser.state = ⟨.BlockMappingValue, ss⟩) (hd : s.parser.done = false) :
    wp pan (blockMappingValue drive) s fun ev s' => Trans s.parser ev s'.parser := by
  unfold blockMappingValue
  rw [wp_bind]
  refine wp_peek hs fun e t he => ?_
  have hp := PeekReader.peek_peeked he
  split
  · rw [wp_bind]
    refine wp_pop_peeked hp ?_
    rw [wp_bind]
    refine wp_peek hs fun e' t' he' => ?_
    split
    · rw [wp_bind, wp_pushState]
      refine wp_node hs rfl hd fun e m' h => ?_
      simp only [hst, StateMachine.push] at h ⊢
      exact .bvalNode h
    · simp only [wp_bind, wp_pure, wp_setTop]
      refine trans_simple ?_ rfl rfl tagOk_emptyScalar
      simp only [hst, hd]
      exact .bvalEmpty
  · simp only [wp_bind, wp_pure, wp_setTop]
    refine trans_simple ?_ rfl rfl tagOk_emptyScalar
    simp only [hst, hd]
    exact .bvalEmpty

theorem wp_fetchSequenceEnd {s : PS σ} {p : Parser} (hs : SrcOk pan drive) {a b : Nat}
    (hdir : s.parser.directives = p.directives) (hd : s.parser.done = false)
    (h : Step p.state (some .seqEnd) s.parser.state.pop false) :
    wp pan (do let ev ← fetchSequenceEnd drive a b; pure (some ev)) s
      fun ev s' => Trans p ev s'.parser := by
  unfold fetchSequenceEnd
  simp only [wp_bind, wp_popState]
  refine wp_pop hs fun e t _ => ?_
  simp only [wp_pure]
  exact trans_simple (by rw [← hd] at h; exact h) hdir rfl trivial

theorem wp_fetchMappingEnd {s : PS σ} {p : Parser} (hs : SrcOk pan drive) {a b : Nat}
    (hdir : s.parser.directives = p.directives) (hd : s.parser.done = false)
    (h : Step p.state (some .mapEnd) s.parser.state.pop false) :
    wp pan (do let ev ← fetchMappingEnd drive a b; pure (some ev)) s
      fun ev s' => Trans p ev s'.parser := by
  unfold fetchMappingEnd
  simp only [wp_bind, wp_popState]
  refine wp_pop hs fun e t _ => ?_
  simp only [wp_pure]
  exact trans_simple (by rw [← hd] at h; exact h) hdir rfl trivial

theorem flowSequenceEntry_spec {s : PS σ} (hs : SrcOk pan drive) {ss : List State} {first : Bool}
    (hst : s.parser.state = ⟨.FlowSequenceEntry first, ss⟩) (hd : s.parser.done = false) :
    wp pan (flowSequenceEntry drive first) s fun ev s' => Trans s.parser ev s'.parser := by
  unfold flowSequenceEntry
  rw [wp_bind]
  refine wp_popFirst hs fun t => ?_
  rw [wp_bind]
  refine wp_peek hs fun e t he => ?_
  have hp := PeekReader.peek_peeked he
  split
  · rw [wp_bind]
    refine wp_popFlowEntry hs fun t => ?_
    rw [wp_bind]
    refine wp_peek hs fun e t he => ?_
    have hp := PeekReader.peek_peeked he
    split
    · rw [wp_bind]
      refine wp_pop_peeked hp ?_
      simp only [wp_bind, wp_pure, wp_setTop]
      refine trans_simple ?_ rfl rfl (by intro a b h; simp at h)
      simp only [hst, hd]
      exact .fseqPair
    · split
      · rw [wp_bind, wp_pushState]
        refine wp_node hs rfl hd fun e m' h => ?_
        simp only [hst, StateMachine.push] at h ⊢
        exact .fseqNode h
      · refine wp_fetchSequenceEnd hs rfl hd ?_
        simp only [hst]
        exact .fseqEnd
  · refine wp_fetchSequenceEnd hs rfl hd ?_
    simp only [hst]
    exact .fseqEnd

theorem flowSequenceEntryMappingKey_spec {s : PS σ} (hs : SrcOk pan drive) {ss : List State}
    (hst : s.parser.state = ⟨.FlowSequenceMappingKey, ss⟩) (hd : s.parser.done = false) :
    wp pan (flowSequenceEntryMappingKey drive) s fun ev s' => Trans s.parser ev s'.parser := by
  unfold flowSequenceEntryMappingKey
  rw [wp_bind]
  refine wp_peek hs fun e t he => ?_
  split
  · rw [wp_bind, wp_pushState]
    refine wp_node hs rfl hd fun e m' h => ?_
    simp only [hst, StateMachine.push] at h ⊢
    exact .fsmKeyNode h
  · simp only [wp_bind, wp_pure, wp_setTop]
    refine trans_simple ?_ rfl rfl tagOk_emptyScalar
    simp only [hst, hd]
    exact .fsmKeyEmpty

theorem flowSequenceEntryMappingValue_spec {s : PS σ} (hs : SrcOk pan drive) {ss : List State}
    (hst : s.parser.state = ⟨.FlowSequenceMappingValue, ss⟩) (hd : s.parser.done = false) :
    wp pan (flowSequenceEntryMappingValue drive) s fun ev s' => Trans s.parser ev s'.parser := by
  unfold flowSequenceEntryMappingValue
  rw [wp_bind]
  refine wp_peek hs fun e t he => ?_
  have hp := PeekReader.peek_peeked he
  rw [wp_bind]
  refine wp_flowPairHasValue hs fun b t => ?_
  split
  · rw [wp_bind, wp_pushState]
    refine wp_node hs rfl hd fun e m' h => ?_
    simp only [hst, StateMachine.push] at h ⊢
    exact .fsmValNode h
  · simp only [wp_bind, wp_pure, wp_setTop]
    refine trans_simple ?_ rfl rfl tagOk_emptyScalar
    simp only [hst, hd]
    exact .fsmValEmpty

theorem flowSequenceEntryMappingEnd_spec {s : PS σ} (hs : SrcOk pan drive) {ss : List State}
    (hst : s.parser.state = ⟨.FlowSequenceMappingEnd, ss⟩) (hd : s.parser.done = false) :
    wp pan (flowSequenceEntryMappingEnd drive) s fun ev s' => Trans s.parser ev s'.parser := by
  unfold flowSequenceEntryMappingEnd
  rw [wp_bind]
  refine wp_peek hs fun e t he => ?_
  simp only [wp_bind, wp_pure, wp_setTop]
  refine trans_simple ?_ rfl rfl trivial
  simp only [hst, hd]
  exact .fsmEnd

theorem flowMappingKey_spec {s : PS σ} (hs : SrcOk pan drive) {ss : List State} {first : Bool}
    (hst : s.parser.state = ⟨.FlowMappingKey first, ss⟩) (hd : s.parser.done = false) :
    wp pan (flowMappingKey drive first) s fun ev s' => Trans s.parser ev s'.parser := by
  unfold flowMappingKey
  rw [wp_bind]
  refine wp_popFirst hs fun t => ?_
  rw [wp_bind]
  refine wp_peek hs fun e t he => ?_
  have hp := PeekReader.peek_peeked he
  split
  · rw [wp_bind]
    refine wp_popFlowEntry hs fun t => ?_
    rw [wp_bind]
    refine wp_peek hs fun e t he => ?_
    have hp := PeekReader.peek_peeked he
    split
    · rw [wp_bind]
      refine wp_pop_peeked hp ?_
      rw [wp_bind]
      refine wp_peek hs fun e t he => ?_
      split
      · rw [wp_bind, wp_pushState]
        refine wp_node hs rfl hd fun e m' h => ?_
        simp only [hst, StateMachine.push] at h ⊢
        exact .fkeyNode h
      · simp only [wp_bind, wp_pure, wp_setTop]
        refine trans_simple ?_ rfl rfl tagOk_emptyScalar
        simp only [hst, hd]
        exact .fkeyEmpty
    · split
      · rw [wp_bind, wp_pushState]
        refine wp_node hs rfl hd fun e m' h => ?_
        simp only [hst, StateMachine.push] at h ⊢
        exact .fkeyNode h
      · refine wp_fetchMappingEnd hs rfl hd ?_
        simp only [hst]
        exact .fkeyEnd
  · refine wp_fetchMappingEnd hs rfl hd ?_
    simp only [hst]
    exact .fkeyEnd

theorem flowMappingValue_spec {s : PS σ} (hs : SrcOk pan drive) {ss : List State} {empty : Bool}
    (hst : s.parser.state = ⟨.FlowMappingValue empty, ss⟩) (hd : s.parser.done = false) :
    wp pan (flowMappingValue drive empty) s fun ev s' => Trans s.parser ev s'.parser := by
  unfold flowMappingValue
  rw [wp_bind]
  refine wp_peek hs fun e t he => ?_
  have hp := PeekReader.peek_peeked he
  have hempty : ∀ (n : Nat) (s1 : PS σ), s1.parser = s.parser →
      wp pan (do setTop (.FlowMappingKey false); pure (some (emptyScalar n .Value))) s1
        fun ev s' => Trans s.parser ev s'.parser := by
    intro n s1 h1
    simp only [wp_bind, wp_pure, wp_setTop]
    refine trans_simple ?_ (by simp [h1]) rfl tagOk_emptyScalar
    simp only [h1, hst, hd]
    exact .fvalEmpty
  split
  · exact hempty _ _ rfl
  · split
    · rw [wp_bind]
      refine wp_pop_peeked hp ?_
      rw [wp_bind]
      refine wp_peek hs fun e t he => ?_
      split
      · rw [wp_bind, wp_pushState]
        refine wp_node hs rfl hd fun e m' h => ?_
        simp only [hst, StateMachine.push] at h ⊢
        exact .fvalNode h
      · exact hempty _ _ rfl
    · exact hempty _ _ rfl

end Parser

end Yary
