import Verif.Proof.Trace
import Verif.Spec.Calls

/-! The tokens of document starts and ends; whole calls and histories. -/

namespace Yary

open Spec PM

variable {σ : Type} {drive : Drive σ}

namespace Parser

/-- The loop of `scan_document_directives` has seen the directives `dirs`. -/
structure Seen (dirs : List TokenEntry) (seen : Bool) (d : Directives) : Prop where
  directives : ∀ t ∈ dirs, isDirective t = true
  fresh : seen = false → versions dirs = [] ∧ d.version = defaultVersion
  once : seen = true → versions dirs = [d.version]
  distinct : ((knownTags ++ tagPairs dirs).map (·.1)).Nodup
  tags : ∀ h p, (h, p) ∈ d.tags ↔ (h, p) ∈ knownTags ∨ (h, p) ∈ tagPairs dirs
  handles : (d.tags.map (·.1)).Nodup

theorem seen_nil : Seen [] false .default where
  directives := by simp
  fresh := by simp [versions, Directives.default]
  once := by simp
  distinct := by decide
  tags := by simp [tagPairs, Directives.default, defaultTags, knownTags]
  handles := by decide

theorem versions_append (l₁ l₂ : List TokenEntry) :
    versions (l₁ ++ l₂) = versions l₁ ++ versions l₂ := by
  induction l₁ with
  | nil => rfl
  | cons t l₁ ih =>
    obtain ⟨w, n⟩ := t
    rcases w with w | l
    · cases w <;> simp [versions, ih]
    · simp [versions, ih]

theorem tagPairs_append (l₁ l₂ : List TokenEntry) :
    tagPairs (l₁ ++ l₂) = tagPairs l₁ ++ tagPairs l₂ := by
  induction l₁ with
  | nil => rfl
  | cons t l₁ ih =>
    obtain ⟨w, n⟩ := t
    rcases w with w | l
    · cases w <;> simp [tagPairs, ih]
    · simp [tagPairs, ih]

theorem get_none {m : TagMap} {k : Str} (h : ¬ (m.get k).isSome = true) : ∀ p, (k, p) ∉ m := by
  intro p hp
  apply h
  unfold TagMap.get
  rw [Option.isSome_map, List.find?_isSome]
  exact ⟨_, hp, by simp⟩

theorem get_some {m : TagMap} {k p : Str} (h : (k, p) ∈ m) : (m.get k).isSome = true := by
  cases hc : (m.get k).isSome with
  | true => rfl
  | false => exact absurd h (get_none (by simp [hc]) p)

theorem Seen.version {dirs : List TokenEntry} {d : Directives} (h : Seen dirs false d)
    {e : TokenEntry} {a b : Nat} (hw : e.wrap = .Token (.VersionDirective a b)) :
    Seen (dirs ++ [e]) true { d with version := ⟨a, b⟩ } := by
  obtain ⟨w, n⟩ := e
  simp only at hw
  subst hw
  refine ⟨?_, by simp, ?_, ?_, ?_, h.handles⟩
  · intro t ht
    simp only [List.mem_append, List.mem_singleton] at ht
    rcases ht with ht | rfl
    · exact h.directives _ ht
    · rfl
  · simp [versions_append, (h.fresh rfl).1, versions]
  · simpa [tagPairs_append, tagPairs] using h.distinct
  · simpa [tagPairs_append, tagPairs] using h.tags

theorem Seen.tag {dirs : List TokenEntry} {d : Directives} {seen : Bool} (h : Seen dirs seen d)
    {e : TokenEntry} {a b : Str} (hw : e.wrap = .Token (.TagDirective a b))
    (hn : ¬ (d.tags.get a).isSome = true) :
    Seen (dirs ++ [e]) seen { d with tags := d.tags.insert a b } := by
  obtain ⟨w, n⟩ := e
  simp only at hw
  subst hw
  have hnot := get_none hn
  refine ⟨?_, ?_, ?_, ?_, ?_, ?_⟩
  · intro t ht
    simp only [List.mem_append, List.mem_singleton] at ht
    rcases ht with ht | rfl
    · exact h.directives _ ht
    · rfl
  · simpa [versions_append, versions] using h.fresh
  · simpa [versions_append, versions] using h.once
  · have h0 := h.distinct
    rw [tagPairs_append, ← List.append_assoc, List.map_append]
    rw [List.nodup_append]
    refine ⟨h0, by simp [tagPairs], ?_⟩
    intro x hx y hy
    simp only [tagPairs, List.map_cons, List.map_nil, List.mem_singleton] at hy
    subst hy
    rintro rfl
    rw [List.mem_map] at hx
    obtain ⟨⟨x1, x2⟩, hx, rfl⟩ := hx
    refine hnot x2 ((h.tags _ _).mpr ?_)
    simpa using hx
  · intro k p
    simp only [TagMap.insert, List.mem_cons, Prod.mk.injEq, tagPairs_append, tagPairs,
      List.mem_append, List.not_mem_nil, or_false, h.tags]
    tauto
  · simp only [TagMap.insert, List.map_cons, List.nodup_cons, List.mem_map]
    refine ⟨?_, h.handles⟩
    rintro ⟨⟨x1, x2⟩, hx, rfl⟩
    exact hnot _ hx

theorem Seen.declares {dirs : List TokenEntry} {d : Directives} {seen : Bool}
    (h : Seen dirs seen d) :
    Declares dirs { d with tags := defaultTags.foldl (fun m p => TagMap.orInsert m p.1 p.2) d.tags } := by
  have hd : defaultTags.foldl (fun m p => TagMap.orInsert m p.1 p.2) d.tags = d.tags := by
    have h1 : (d.tags.get (bytes! "!")).isSome = true :=
      get_some (p := bytes! "!") ((h.tags _ _).mpr (Or.inl (by decide)))
    have h2 : (d.tags.get (bytes! "!!")).isSome = true :=
      get_some (p := bytes! "tag:yaml.org,2002:") ((h.tags _ _).mpr (Or.inl (by decide)))
    simp only [defaultTags, List.foldl_cons, List.foldl_nil, TagMap.orInsert, h1, h2, if_true]
  rw [hd]
  refine ⟨h.directives, ?_, h.distinct, h.tags, h.handles⟩
  cases seen with
  | false => exact Or.inl (h.fresh rfl)
  | true => exact Or.inr (h.once rfl)

theorem scanDirectivesLoop_tr {p0 : PeekReader σ} {ends dirs : List TokenEntry} {fuel : Nat}
    {s : PS σ} {stop : Nat} {seen : Bool} {d : Directives} {x : TokenEntry}
    (h : Tr drive p0 (ends ++ dirs) s) (hS : Seen dirs seen d)
    (hx : x ∈ ends ++ dirs ++ s.tokens.peeked.toList) :
    wp True (scanDirectivesLoop drive fuel stop seen d) s fun r s' => s'.parser = s.parser ∧
      ∃ dirs' seen', Tr drive p0 (ends ++ dirs') s' ∧ Seen dirs' seen' r.2 ∧
        x ∈ ends ++ dirs' ++ s'.tokens.peeked.toList := by
  induction fuel generalizing s stop seen d dirs with
  | zero => simp [scanDirectivesLoop]
  | succ n ih =>
    unfold scanDirectivesLoop
    rw [wp_bind]
    refine tr_peek h fun e s1 h1 h2 h3 h4 => ?_
    have hx' : x ∈ ends ++ dirs ++ [e] := by
      simp only [List.mem_append, Option.mem_toList, List.mem_singleton] at hx ⊢
      rcases hx with hx | hx
      · exact Or.inl hx
      · exact Or.inr (h4 _ hx).symm
    split
    · next hm =>
      obtain ⟨a, b, hw⟩ := marker_version hm
      split
      · next hseen =>
        have hseen : seen = false := by simpa using hseen
        subst hseen
        rw [wp_bind]
        unfold consumeVersion
        rw [wp_bind]
        refine tr_popP h2 h3 fun s2 g1 g2 => ?_
        rw [hw]
        simp only [wp_pure]
        rw [List.append_assoc] at g2
        refine wp_mono (ih g2 (hS.version hw) ?_) ?_
        · rw [← List.append_assoc]; exact List.mem_append_left _ hx'
        · rintro r s' ⟨k1, k⟩
          exact ⟨by rw [k1, g1, h1], k⟩
      · simp
    · next hm =>
      obtain ⟨a, b, hw⟩ := marker_tagDirective hm
      rw [wp_bind]
      unfold consumeTagDirective
      rw [wp_bind]
      refine tr_popP h2 h3 fun s2 g1 g2 => ?_
      rw [hw]
      simp only [wp_pure]
      split
      · simp
      · next hn =>
        rw [List.append_assoc] at g2
        refine wp_mono (ih g2 (hS.tag hw hn) ?_) ?_
        · rw [← List.append_assoc]; exact List.mem_append_left _ hx'
        · rintro r s' ⟨k1, k⟩
          exact ⟨by rw [k1, g1, h1], k⟩
    · exact ⟨h1, dirs, seen, h2, hS, by rw [h3]; exact hx'⟩

theorem scanDocumentDirectives_tr {p0 : PeekReader σ} {ends : List TokenEntry} {fuel : Nat}
    {s : PS σ} (h : Tr drive p0 ends s) :
    wp True (scanDocumentDirectives drive fuel) s fun r s' => s'.parser = s.parser ∧
      ∃ dirs x, Tr drive p0 (ends ++ dirs) s' ∧ Declares dirs r.2.2 ∧
        x ∈ ends ++ dirs ++ s'.tokens.peeked.toList ∧ r.1 = x.readAt := by
  unfold scanDocumentDirectives
  rw [wp_bind]
  refine tr_peek h fun e s1 h1 h2 h3 _ => ?_
  rw [wp_bind]
  refine wp_mono (scanDirectivesLoop_tr (dirs := []) (x := e) (by simpa using h2) seen_nil
    (by simp [h3])) ?_
  rintro ⟨stop, d⟩ s2 ⟨g1, dirs, seen, g2, g3, g4⟩
  simp only [wp_pure]
  exact ⟨g1.trans h1, dirs, e, g2, g3.declares, g4, rfl⟩

/-- Without directives the next token is left alone. -/
theorem scanDocumentDirectives_none {p0 : PeekReader σ} {ends : List TokenEntry} {fuel : Nat}
    {s : PS σ} {e : TokenEntry} (h : Tr drive p0 ends s) (hp : s.tokens.peeked = some e)
    (hm : e.marker ≠ .VersionDirective ∧ e.marker ≠ .TagDirective) :
    wp True (scanDocumentDirectives drive fuel) s fun r s' => s'.parser = s.parser ∧
      Tr drive p0 ends s' ∧ s'.tokens.peeked = some e ∧ r = (e.readAt, e.readAt, r.2.2) ∧
      Declares [] r.2.2 := by
  unfold scanDocumentDirectives
  rw [wp_bind]
  refine tr_peek h fun e1 s1 h1 h2 h3 h4 => ?_
  obtain rfl := h4 _ hp
  rw [wp_bind]
  cases fuel with
  | zero => simp [scanDirectivesLoop]
  | succ n =>
    unfold scanDirectivesLoop
    rw [wp_bind]
    refine tr_peek h2 fun e2 s2 g1 g2 g3 g4 => ?_
    obtain rfl := g4 _ h3
    split
    · next h => exact absurd h hm.1
    · next h => exact absurd h hm.2
    · simp only [wp_pure]
      exact ⟨g1.trans h1, g2, g3, trivial, seen_nil.declares⟩

theorem skipDocumentEnds_tr {p0 : PeekReader σ} {ends : List TokenEntry} {fuel : Nat}
    {s : PS σ} (h : Tr drive p0 ends s) (he : ∀ t ∈ ends, t.marker = .DocumentEnd) :
    wp True (skipDocumentEnds drive fuel) s fun _ s' => s'.parser = s.parser ∧
      ∃ ends', Tr drive p0 ends' s' ∧ ∀ t ∈ ends', t.marker = .DocumentEnd := by
  induction fuel generalizing s ends with
  | zero => simp [skipDocumentEnds]
  | succ n ih =>
    unfold skipDocumentEnds
    rw [wp_bind]
    refine tr_peek h fun e s1 h1 h2 h3 h4 => ?_
    split
    · next hm =>
      rw [wp_bind]
      refine tr_popP h2 h3 fun s2 g1 g2 => ?_
      refine wp_mono (ih g2 ?_) ?_
      · intro t ht
        simp only [List.mem_append, List.mem_singleton] at ht
        rcases ht with ht | rfl
        · exact he _ ht
        · exact hm
      · rintro _ s' ⟨k1, k⟩
        exact ⟨by rw [k1, g1, h1], k⟩
    · exact ⟨h1, ends, h2, he⟩

variable {s : PS σ}

theorem documentStart_tr (hf : First s) {i f : Bool} {ss : List State} {fuel : Nat}
    (hst : s.parser.state = ⟨.DocumentStart i f, ss⟩) :
    wp True (documentStart drive fuel i f) s (OkEv drive s.tokens) := by
  have hss : ss = [] := by
    have := hf.good
    rw [hst] at this
    cases ss with
    | nil => rfl
    | cons q qs => simp [Good, inDoc] at this
  subst hss
  unfold documentStart
  rw [wp_bind]
  have h0 : wp True (skipEndsIf drive fuel i) s fun _ s' => s'.parser = s.parser ∧
      ∃ ends, Tr drive s.tokens ends s' ∧ (∀ t ∈ ends, t.marker = .DocumentEnd) := by
    unfold skipEndsIf
    split
    · exact ⟨rfl, [], .nil _, by simp⟩
    · exact skipDocumentEnds_tr (Pops.nil _) (by simp)
  refine wp_mono h0 ?_
  rintro _ s1 ⟨h1, ends, h2, hends⟩
  rw [wp_bind]
  refine tr_peek h2 fun e s2 g1 g2 g3 _ => ?_
  dsimp only
  split
  · next hc =>
    simp only [Bool.and_eq_true, Bool.not_eq_true', Bool.or_eq_false_iff,
      decide_eq_false_iff_not] at hc
    obtain ⟨-, ⟨⟨hm1, hm2⟩, hm3⟩, hm4⟩ := hc
    rw [wp_bind]
    refine wp_mono (scanDocumentDirectives_none g2 g3 ⟨hm2, hm1⟩) ?_
    rintro ⟨a, b, d⟩ s3 ⟨k1, k2, k3, k4, k5⟩
    simp only [Prod.mk.injEq] at k4
    simp only [wp_bind, wp_pure, wp_setTop, wp_pushState, setDirectives, wp_modify]
    refine ⟨⟨?_, ?_⟩, ends, k2, ?_, ?_⟩
    · simp [k1, g1, h1, hst, StateMachine.push, StateMachine.setTop, Good, inDoc, firstTok]
    · simp [StateMachine.push, StateMachine.setTop, firstTok]
    · exact ⟨ends, [], [], by simp, hends, k5, by simp, by simp⟩
    · exact Marked.same (x := e) (by simp [k3]) k4.1 k4.2.1
  · split
    · rw [wp_bind]
      refine wp_mono (scanDocumentDirectives_tr g2) ?_
      rintro ⟨a, b, d⟩ s3 ⟨k1, dirs, x, k2, k3, hx, hax⟩
      unfold documentMarker
      simp only [wp_bind]
      refine tr_peek k2 fun e' s4 l1 l2 l3 l4 => ?_
      have hx' : x ∈ ends ++ dirs ++ [e'] := by
        simp only [List.mem_append, Option.mem_toList, List.mem_singleton] at hx ⊢
        rcases hx with hx | hx
        · exact Or.inl hx
        · exact Or.inr (l4 _ hx).symm
      split
      · next hm =>
        rw [wp_bind]
        refine tr_popP l2 l3 fun s5 m1 m2 => ?_
        simp only [wp_pure, wp_setTop, wp_pushState, setDirectives, wp_modify]
        refine ⟨⟨?_, ?_⟩, _, m2, ?_, ?_⟩
        · simp [m1, l1, k1, g1, h1, hst, StateMachine.push, StateMachine.setTop, Good, inDoc,
            firstTok]
        · simp [StateMachine.push, StateMachine.setTop, firstTok]
        · refine ⟨ends, dirs, [e'], rfl, hends, k3, by simp, fun _ => ⟨e'.readAt, ?_⟩⟩
          obtain ⟨w, r⟩ := e'
          rcases w with w | l
          · cases w <;> simp_all [TokenEntry.marker, MaybeToken.marker, Marker.ofToken]
          · simp [TokenEntry.marker, MaybeToken.marker] at hm
        · rw [List.append_assoc]
          exact Marked.upto hx' hax rfl
      · simp
    · next hm =>
      have hm : e.marker = .StreamEnd := by simpa using hm
      split
      · rw [wp_bind]
        refine wp_mono (scanDocumentDirectives_none g2 g3 (by simp [hm])) ?_
        rintro ⟨a, b, d⟩ s3 ⟨k1, k2, k3, k4, k5⟩
        simp only [Prod.mk.injEq] at k4
        simp only [wp_bind, wp_pure, wp_setTop, setDirectives, wp_modify]
        refine ⟨⟨?_, ?_⟩, ends, k2, ?_, ?_⟩
        · simp [k1, g1, h1, hst, StateMachine.setTop, Good, inDoc]
        · simp [StateMachine.setTop, firstTok]
        · exact ⟨ends, [], [], by simp, hends, k5, by simp, by simp⟩
        · exact Marked.same (x := e) (by simp [k3]) k4.1 k4.2.1
      · simp only [wp_bind, wp_pure, wp_setTop]
        refine ⟨⟨?_, ?_⟩, ends, g2, Or.inr ⟨rfl, hends⟩⟩
        · simp [g1, h1, hst, StateMachine.setTop, Good, inDoc]
        · simp [StateMachine.setTop, firstTok]

theorem documentEnd_tr (hf : First s) {ss : List State}
    (hst : s.parser.state = ⟨.DocumentEnd, ss⟩) :
    wp True (documentEnd drive) s (OkEv drive s.tokens) := by
  have hg := hf.good
  unfold documentEnd implicitEnd
  rw [wp_bind]
  refine tr_peek (Pops.nil _) fun e s1 h1 h2 h3 _ => ?_
  rw [wp_bind]
  split
  · next hm =>
    rw [wp_bind]
    refine tr_popP h2 h3 fun s2 g1 g2 => ?_
    rw [wp_pure]
    refine simple_tr g2 (by simp [*]) hg (by simp [hst, inDoc]) rfl ?_ (x := e) (by simp) rfl rfl
    refine ⟨by simp, fun _ => ⟨e.readAt, ?_⟩⟩
    obtain ⟨w, r⟩ := e
    rcases w with w | l
    · cases w <;> simp_all [TokenEntry.marker, MaybeToken.marker, Marker.ofToken]
    · simp [TokenEntry.marker, MaybeToken.marker] at hm
  · rw [wp_pure]
    exact simple_tr h2 (by simp [*]) hg (by simp [hst, inDoc]) rfl ⟨by simp, by simp⟩ (x := e)
      (by simp [h3]) rfl rfl

theorem explicitDocumentContent_tr (hf : First s) {ss : List State}
    (hst : s.parser.state = ⟨.DocumentContent, ss⟩) :
    wp True (explicitDocumentContent drive) s (OkEv drive s.tokens) := by
  have hg := hf.good
  have hi : inDoc s.parser.state.top = true := by rw [hst]; rfl
  unfold explicitDocumentContent
  rw [wp_bind]
  refine tr_peek (Pops.nil _) fun e s1 h1 h2 h3 _ => ?_
  split
  · simp only [wp_bind, wp_pure, wp_popState]
    exact ⟨First.pop hg hi (by simp [h1]), [], h2, Or.inl rfl⟩
  · exact node_tr h2 carry_nil (by rw [h1]; exact hg) (by rw [h1]; exact hi)

theorem streamStart_tr (hf : First s) {ss : List State}
    (hst : s.parser.state = ⟨.StreamStart, ss⟩) :
    wp True (streamStart drive) s (OkEv drive s.tokens) := by
  have hg := hf.good
  unfold streamStart
  rw [wp_bind]
  refine tr_peek (Pops.nil _) fun e s1 h1 h2 h3 _ => ?_
  split
  · next hm =>
    obtain ⟨enc, hw⟩ := marker_streamStart hm
    rw [wp_bind]
    unfold consumeStreamStart
    rw [wp_bind]
    refine tr_popP h2 h3 fun s2 g1 g2 => ?_
    rw [hw]
    simp only [wp_pure]
    refine simple_tr g2 (by simp [*]) hg (by simp [hst, inDoc]) rfl ?_ (x := e) (by simp) rfl rfl
    refine ⟨e.readAt, ?_⟩
    obtain ⟨w, r⟩ := e
    simp only at hw
    subst hw
    rfl
  · simp

theorem streamEnd_tr {p0 : PeekReader σ} {ends : List TokenEntry} (hf : First s)
    (h : Tr drive p0 ends s) (he : ∀ t ∈ ends, t.marker = .DocumentEnd)
    {ss : List State} (hst : s.parser.state = ⟨.StreamEnd, ss⟩) (hd : s.parser.done = false) :
    wp True (streamEnd drive) s (OkEv drive p0) := by
  have hg := hf.good
  unfold streamEnd
  rw [wp_bind, wp_get]
  simp only [hd, Bool.false_eq_true, if_false]
  rw [wp_bind]
  unfold consumeStreamEnd
  rw [wp_bind]
  refine tr_pop h fun e s1 h1 h2 _ => ?_
  split
  · next hw =>
    simp only [wp_pure, wp_bind, wp_modify]
    refine ⟨⟨?_, ?_⟩, _, h2, ?_, Marked.same (x := e) (by simp) rfl rfl⟩
    · simpa [h1] using hg
    · simp [h1, hst, firstTok]
    · refine ⟨ends, e.readAt, he, ?_⟩
      obtain ⟨w, r⟩ := e
      simp only at hw
      subst hw
      rfl
  · simp

theorem stateTransition_tr {fuel : Nat} (hf : First s) (hd : s.parser.done = false) :
    wp True (stateTransition drive fuel) s (OkEv drive s.tokens) := by
  unfold stateTransition
  rw [wp_bind, wp_get]
  cases hm : s.parser.state with
  | mk t ss =>
    cases t with
    | StreamStart => exact streamStart_tr hf hm
    | DocumentStart i f => exact documentStart_tr hf hm
    | DocumentContent => exact explicitDocumentContent_tr hf hm
    | DocumentEnd => exact documentEnd_tr hf hm
    | BlockNode => exact node_tr (.nil _) carry_nil hf.good (by rw [hm]; rfl)
    | FlowNode => exact node_tr (.nil _) carry_nil hf.good (by rw [hm]; rfl)
    | BlockSequenceEntry b => exact blockSequenceEntry_tr hf hm
    | BlockMappingKey b => exact blockMappingKey_tr hf hm
    | BlockMappingValue => exact blockMappingValue_tr hf hm
    | FlowSequenceEntry b => exact flowSequenceEntry_tr hf hm
    | FlowSequenceMappingKey => exact flowSequenceEntryMappingKey_tr hf hm
    | FlowSequenceMappingValue => exact flowSequenceEntryMappingValue_tr hf hm
    | FlowSequenceMappingEnd => exact flowSequenceEntryMappingEnd_tr hf hm
    | FlowMappingKey b => exact flowMappingKey_tr hf hm
    | FlowMappingValue b => exact flowMappingValue_tr hf hm
    | StreamEnd => exact streamEnd_tr hf (.nil _) (by simp) hm hd

/-- What a call does with tokens, when it hands out an event. -/
def OkCall (drive : Drive σ) (p0 : PeekReader σ) (ev : Option Event) (s' : PS σ) : Prop :=
  ∀ e, ev = some e → First s' ∧ ∃ ts, Pops drive p0 ts s'.tokens ∧
    Explains ts e.data ∧ Marked (ts ++ s'.tokens.peeked.toList) e

theorem nextEventLoop_tr {p0 : PeekReader σ} {pre : List TokenEntry} {fuel n : Nat} (hf : First s)
    (h : Tr drive p0 pre s)
    (hpre : pre = [] ∨ s.parser.state.top = .StreamEnd ∧ ∀ t ∈ pre, t.marker = .DocumentEnd) :
    wp True (nextEventLoop drive fuel n) s (OkCall drive p0) := by
  induction n generalizing s pre with
  | zero => simp [nextEventLoop]
  | succ n ih =>
    unfold nextEventLoop
    rw [wp_bind, wp_get]
    split
    · intro e he; simp at he
    · next hd =>
      have hd : s.parser.done = false := by simpa using hd
      rw [wp_bind]
      have hst : wp True (stateTransition drive fuel) s (OkEv drive p0) := by
        rcases hpre with rfl | ⟨ht, hpre⟩
        · refine wp_mono (stateTransition_tr hf hd) ?_
          rintro ev s' ⟨h1, ts, h2, h3⟩
          exact ⟨h1, ts, by simpa using h.append h2, h3⟩
        · unfold stateTransition
          rw [wp_bind, wp_get, ht]
          exact streamEnd_tr (ss := s.parser.state.stack) hf h hpre (by rw [← ht]) hd
      refine wp_mono hst ?_
      rintro ev s1 ⟨h1, ts, h2, h3⟩
      cases ev with
      | some e =>
        rw [wp_pure]
        rintro _ ⟨⟩
        exact ⟨h1, ts, h2, h3⟩
      | none => exact ih h1 h2 h3

theorem nextEvent_tr {fuel : Nat} {s' : PS σ} {e : Event} (hf : First s)
    (h : nextEvent drive fuel s = (.ok (some e), s')) :
    First s' ∧ ∃ ts, Pops drive s.tokens ts s'.tokens ∧
      Explains ts e.data ∧ Marked (ts ++ s'.tokens.peeked.toList) e :=
  wp_ok (Q := OkCall drive s.tokens) (nextEventLoop_tr hf (.nil _) (Or.inl rfl)) h e rfl

theorem new_first (src : σ) : First (start src) := ⟨rfl, by simp [start, Parser.new, firstTok]⟩

end Parser

/-- Chunks of tokens with their events; `last` is what is peeked at the end. -/
inductive Chunks (drive : Drive σ) : PeekReader σ → List (List TokenEntry × Event) →
    PeekReader σ → Prop where
  | nil (p : PeekReader σ) : Chunks drive p [] p
  | cons {p q r : PeekReader σ} {ts : List TokenEntry} {e : Event}
      {cs : List (List TokenEntry × Event)} (h : Pops drive p ts q) (hx : Explains ts e.data)
      (hm : Marked (ts ++ q.peeked.toList) e) (t : Chunks drive q cs r) :
      Chunks drive p ((ts, e) :: cs) r

theorem yields_chunks {s s' : PS σ} {es : List Event} (h : Yields drive s es s')
    (hf : First s) : First s' ∧ ∃ cs, Chunks drive s.tokens cs s'.tokens ∧ cs.map (·.2) = es := by
  induction h with
  | nil => exact ⟨hf, [], .nil _, rfl⟩
  | cons fuel h _ ih =>
    obtain ⟨h1, ts, h2, h3, h4⟩ := Parser.nextEvent_tr hf h
    obtain ⟨g1, cs, g2, g3⟩ := ih h1
    exact ⟨g1, _, .cons h2 h3 h4 g2, by simp [g3]⟩

theorem Chunks.explained {p q : PeekReader σ} {cs : List (List TokenEntry × Event)}
    (h : Chunks drive p cs q) : Explained (cs.map (·.1)) (cs.map (·.2)) ∧
      Pops drive p (cs.map (·.1)).flatten q := by
  induction h with
  | nil => exact ⟨.nil, .nil _⟩
  | cons h hx _ _ ih => exact ⟨.cons hx ih.1, h.append ih.2⟩

/-- Marks along a history: all lie at or after the peeked token, and are ordered. -/
theorem Chunks.marks {p q : PeekReader σ} {cs : List (List TokenEntry × Event)}
    (h : Chunks drive p cs q)
    (hs : (((cs.map (·.1)).flatten ++ q.peeked.toList).map (·.readAt)).Pairwise (· ≤ ·)) :
    (cs.flatMap fun c => [c.2.start, c.2.stop]).Pairwise (· ≤ ·) ∧
    ∀ m ∈ cs.flatMap (fun c => [c.2.start, c.2.stop]),
      ∃ x ∈ (cs.map (·.1)).flatten ++ q.peeked.toList, m = x.readAt := by
  induction h with
  | nil => simp
  | @cons p q r ts e cs h hx hm t ih =>
    simp only [List.map_cons, List.flatten_cons, List.append_assoc] at hs ⊢
    have hs' := hs
    rw [List.map_append, List.pairwise_append] at hs'
    obtain ⟨ih1, ih2⟩ := ih hs'.2.1
    obtain ⟨⟨x, hx, hxe⟩, ⟨y, hy, hye⟩, hle⟩ := hm
    have hpops := t.explained.2
    -- everything in `ts ++ peeked` is at most everything later
    have hq : ∀ z ∈ q.peeked.toList, z ∈ (cs.map (·.1)).flatten ++ r.peeked.toList ∧
        ∀ u ∈ (cs.map (·.1)).flatten ++ r.peeked.toList, z.readAt ≤ u.readAt := by
      intro z hz
      rw [Option.mem_toList] at hz
      obtain ⟨l, hl⟩ := hpops.head hz
      have h2 := hs'.2.1
      rw [hl] at h2 ⊢
      refine ⟨by simp, ?_⟩
      intro u hu
      simp only [List.mem_cons] at hu
      rcases hu with rfl | hu
      · exact Nat.le_refl _
      · simp only [List.map_cons, List.pairwise_cons, List.mem_map] at h2
        exact h2.1 _ ⟨u, hu, rfl⟩
    have hlater : ∀ z ∈ ts ++ q.peeked.toList,
        ∀ u ∈ (cs.map (·.1)).flatten ++ r.peeked.toList, z.readAt ≤ u.readAt := by
      intro z hz u hu
      rw [List.mem_append] at hz
      rcases hz with hz | hz
      · exact hs'.2.2 _ (List.mem_map_of_mem hz) _ (List.mem_map_of_mem hu)
      · exact (hq z hz).2 u hu
    have hmem : ∀ z ∈ ts ++ q.peeked.toList,
        z ∈ ts ++ ((cs.map (·.1)).flatten ++ r.peeked.toList) := by
      intro z hz
      rw [List.mem_append] at hz ⊢
      exact hz.imp id fun hz => (hq z hz).1
    have hsort : ((ts ++ q.peeked.toList).map (·.readAt)).Pairwise (· ≤ ·) := by
      rw [List.map_append, List.pairwise_append]
      refine ⟨hs'.1, ?_, ?_⟩
      · cases q.peeked <;> simp
      · intro a ha b hb
        rw [List.mem_map] at hb
        obtain ⟨z, hz, rfl⟩ := hb
        exact hs'.2.2 _ ha _ (List.mem_map_of_mem (hq z hz).1)
    refine ⟨?_, ?_⟩
    · simp only [List.flatMap_cons, List.cons_append, List.nil_append, List.pairwise_cons,
        List.mem_cons]
      refine ⟨?_, ?_, ih1⟩
      · rintro m (rfl | hm)
        · exact hle hsort
        · obtain ⟨u, hu, rfl⟩ := ih2 m hm
          rw [hxe]; exact hlater x hx u hu
      · intro m hm
        obtain ⟨u, hu, rfl⟩ := ih2 m hm
        rw [hye]; exact hlater y hy u hu
    · intro m hm
      simp only [List.flatMap_cons, List.cons_append, List.nil_append, List.mem_cons] at hm
      rcases hm with rfl | rfl | hm
      · exact ⟨x, hmem x hx, hxe⟩
      · exact ⟨y, hmem y hy, hye⟩
      · obtain ⟨u, hu, rfl⟩ := ih2 m hm
        exact ⟨u, List.mem_append_right _ hu, rfl⟩

end Yary
