import Verif.Proof.TraceDoc
import Verif.Spec.Translate

/-! What the parser accepts is a stream of the token grammar: the tokens still to be taken in each
state, and that every step stays within the grammar. -/

namespace Yary.Sound

open Yary Spec PM Parser

variable {σ : Type} {drive : Drive σ}

/-- The tokens without their positions. -/
abbrev bare (ts : List TokenEntry) : List MaybeToken := ts.map TokenEntry.wrap

/-- The tokens a state still takes for the construct it is in, and the events of them. -/
def K (tags : List (Str × Str)) : State → List MaybeToken → List EventData → Prop
  | .StreamStart, us, fs => TStream us fs
  | .DocumentStart true true, us, fs =>
      ∀ enc, TStream (.Token (.StreamStart enc) :: us) (.StreamStart enc :: fs)
  | .DocumentStart true false, us, fs => TDocs true us fs
  | .DocumentStart false false, us, fs =>
      ∃ n us', us = List.replicate n (.Token .DocumentEnd) ++ us' ∧ TDocs false us' fs
  | .DocumentStart false true, _, _ => True
  | .DocumentContent, us, fs => TContent tags us fs
  | .DocumentEnd, us, fs => ∃ b x y ts es, TEnd b x y ∧ TDocs b ts es ∧ us = x ++ ts ∧ fs = y ++ es
  | .BlockNode, us, fs => TNode tags true .Root us fs
  | .FlowNode, us, fs => TNode tags false .Root us fs
  | .BlockSequenceEntry true, us, fs =>
      ∃ ts, us = .Token .BlockSequenceStart :: ts ∧ TBlockSeq tags ts fs
  | .BlockSequenceEntry false, us, fs => TBlockSeq tags us fs
  | .BlockMappingKey true, us, fs =>
      ∃ ts, us = .Token .BlockMappingStart :: ts ∧ TBlockMap tags ts fs
  | .BlockMappingKey false, us, fs => TBlockMap tags us fs
  | .BlockMappingValue, us, fs => ∃ u v ts es, TValue tags true u v ∧ TBlockMap tags ts es ∧
      us = u ++ ts ∧ fs = v ++ es
  | .FlowSequenceEntry true, us, fs =>
      ∃ ts, us = .Token .FlowSequenceStart :: ts ∧ TFlowSeq tags true ts fs
  | .FlowSequenceEntry false, us, fs => TFlowSeq tags false us fs
  | .FlowSequenceMappingKey, us, fs => ∃ u v u' v' ts es, TPart tags false .Key u v ∧
      TValue tags false u' v' ∧ TFlowSeq tags false ts es ∧
      us = u ++ (u' ++ ts) ∧ fs = v ++ (v' ++ .MappingEnd :: es)
  | .FlowSequenceMappingValue, us, fs => ∃ u v ts es, TValue tags false u v ∧
      TFlowSeq tags false ts es ∧ us = u ++ ts ∧ fs = v ++ .MappingEnd :: es
  | .FlowSequenceMappingEnd, us, fs => ∃ es, TFlowSeq tags false us es ∧ fs = .MappingEnd :: es
  | .FlowMappingKey true, us, fs =>
      ∃ ts, us = .Token .FlowMappingStart :: ts ∧ TFlowMap tags true ts fs
  | .FlowMappingKey false, us, fs => TFlowMap tags false us fs
  | .FlowMappingValue true, us, fs => ∃ es, TFlowMap tags false us es ∧ fs = leftOut .Value :: es
  | .FlowMappingValue false, us, fs => ∃ u v ts es, TValue tags false u v ∧
      TFlowMap tags false ts es ∧ us = u ++ ts ∧ fs = v ++ es
  | .StreamEnd, us, fs => us = [.Token .StreamEnd] ∧ fs = [.StreamEnd]

/-- The tokens a whole stack of states still takes. -/
def Rest (tags : List (Str × Str)) : List State → List MaybeToken → List EventData → Prop
  | [], us, fs => us = [] ∧ fs = []
  | q :: qs, us, fs => ∃ u v us' fs', K tags q u v ∧ Rest tags qs us' fs' ∧
      us = u ++ us' ∧ fs = v ++ fs'

/-- The tokens a parser still takes. -/
abbrev Left (p : Parser) (us : List MaybeToken) (fs : List EventData) : Prop :=
  Rest p.directives.tags (p.state.top :: p.state.stack) us fs

/-- `us` are tokens that may come next: the peeked one is the first of them. -/
def Ahd (s : PS σ) (us : List MaybeToken) : Prop :=
  ∀ e, s.tokens.peeked = some e → us = [] ∨ ∃ l, us = e.wrap :: l

/-- The handle `!` is known. -/
def Bang (p : Parser) : Prop := ∃ x, (bytes! "!", x) ∈ p.directives.tags

/-- What a transition from `p` did is within the grammar. -/
def Fits (drive : Drive σ) (p0 : PeekReader σ) (p : Parser) (ev : Option Event) (s' : PS σ) :
    Prop :=
  s'.parser.done = p.done ∧ Bang s'.parser ∧ ∃ ts, Pops drive p0 ts s'.tokens ∧
    ∀ us fs, Ahd s' us → Left s'.parser us fs →
      Left p (bare ts ++ us) (ev.toList.map (·.data) ++ fs)

theorem fetchAnchor_so {p0 : PeekReader σ} {acc : List TokenEntry} {s : PS σ}
    (h : Tr drive p0 acc s) {n : Nat} :
    wp True (fetchAnchor drive n) s fun r s' => s'.parser = s.parser ∧
      (r.2 = none ∧ Tr drive p0 acc s' ∨
        ∃ a e, r.2 = some a ∧ e.wrap = .Token (.Anchor a) ∧ Tr drive p0 (acc ++ [e]) s') := by
  unfold fetchAnchor
  rw [wp_bind]
  refine tr_peekMaybe h fun r s1 h1 h2 h3 h4 => ?_
  cases r with
  | none => exact ⟨h1, .inl ⟨rfl, h2⟩⟩
  | some e =>
    simp only
    split
    · next hm =>
      obtain ⟨a, hw⟩ := marker_anchor hm
      unfold consumeAnchor
      rw [wp_bind, wp_bind]
      refine tr_popP h2 h3 fun s2 g1 g2 => ?_
      rw [hw]
      simp only [wp_pure]
      exact ⟨g1.trans h1, .inr ⟨a, e, rfl, hw, g2⟩⟩
    · exact ⟨h1, .inl ⟨rfl, h2⟩⟩

theorem fetchTag_so {p0 : PeekReader σ} {acc : List TokenEntry} {s : PS σ}
    (h : Tr drive p0 acc s) {n : Nat} :
    wp True (fetchTag drive n) s fun r s' => s'.parser = s.parser ∧
      (r.2 = none ∧ Tr drive p0 acc s' ∨
        ∃ a b e, r.2 = some (a, b) ∧ e.wrap = .Token (.Tag a b) ∧ Tr drive p0 (acc ++ [e]) s') := by
  unfold fetchTag
  rw [wp_bind]
  refine tr_peekMaybe h fun r s1 h1 h2 h3 h4 => ?_
  cases r with
  | none => exact ⟨h1, .inl ⟨rfl, h2⟩⟩
  | some e =>
    simp only
    split
    · next hm =>
      obtain ⟨a, b, hw⟩ := marker_tag hm
      unfold consumeTag
      rw [wp_bind, wp_bind]
      refine tr_popP h2 h3 fun s2 g1 g2 => ?_
      rw [hw]
      simp only [wp_pure]
      exact ⟨g1.trans h1, .inr ⟨a, b, e, rfl, hw, g2⟩⟩
    · exact ⟨h1, .inl ⟨rfl, h2⟩⟩

theorem nodeProperties_so {p0 : PeekReader σ} {acc : List TokenEntry} {s : PS σ}
    (h : Tr drive p0 acc s) {m : Marker} {n : Nat} :
    wp True (nodeProperties drive m n) s fun r s' => s'.parser = s.parser ∧
      ∃ ps, Tr drive p0 (acc ++ ps) s' ∧ TProps (bare ps) r.2.1 r.2.2 := by
  unfold nodeProperties
  split
  · rw [wp_bind]
    refine wp_mono (fetchAnchor_so h) ?_
    rintro ⟨n1, a⟩ s1 ⟨h1, h2⟩
    rw [wp_bind]
    rcases h2 with ⟨rfl, h2⟩ | ⟨a, e, rfl, he, h2⟩
    · refine wp_mono (fetchTag_so h2) ?_
      rintro ⟨n2, t⟩ s2 ⟨g1, ⟨rfl, g2⟩ | ⟨c, d, e', rfl, he', g2⟩⟩ <;> simp only [wp_pure]
      · exact ⟨g1.trans h1, [], by simpa using g2, .none⟩
      · exact ⟨g1.trans h1, [e'], g2, by simpa [bare, he'] using TProps.tag c d⟩
    · refine wp_mono (fetchTag_so h2) ?_
      rintro ⟨n2, t⟩ s2 ⟨g1, ⟨rfl, g2⟩ | ⟨c, d, e', rfl, he', g2⟩⟩ <;> simp only [wp_pure]
      · exact ⟨g1.trans h1, [e], g2, by simpa [bare, he] using TProps.anchor a⟩
      · exact ⟨g1.trans h1, [e, e'], by simpa using g2,
          by simpa [bare, he, he'] using TProps.anchorTag a c d⟩
  · rw [wp_bind]
    refine wp_mono (fetchTag_so h) ?_
    rintro ⟨n1, a⟩ s1 ⟨h1, h2⟩
    rw [wp_bind]
    rcases h2 with ⟨rfl, h2⟩ | ⟨c, d, e, rfl, he, h2⟩
    · refine wp_mono (fetchAnchor_so h2) ?_
      rintro ⟨n2, t⟩ s2 ⟨g1, ⟨rfl, g2⟩ | ⟨a, e', rfl, he', g2⟩⟩ <;> simp only [wp_pure]
      · exact ⟨g1.trans h1, [], by simpa using g2, .none⟩
      · exact ⟨g1.trans h1, [e'], g2, by simpa [bare, he'] using TProps.anchor a⟩
    · refine wp_mono (fetchAnchor_so h2) ?_
      rintro ⟨n2, t⟩ s2 ⟨g1, ⟨rfl, g2⟩ | ⟨a, e', rfl, he', g2⟩⟩ <;> simp only [wp_pure]
      · exact ⟨g1.trans h1, [e], g2, by simpa [bare, he] using TProps.tag c d⟩
      · exact ⟨g1.trans h1, [e, e'], by simpa using g2,
          by simpa [bare, he, he'] using TProps.tagAnchor a c d⟩
  · exact ⟨rfl, [], by simpa using h, .none⟩

theorem validateTag_so {tags : TagMap} {tag : Option (Str × Str)} {sc : Bool}
    {r : Option (Str × Str)} (hb : ∃ x, (bytes! "!", x) ∈ tags)
    (h : validateTag tags tag sc = .ok r) :
    Usable tags tag ∧ r = if sc then scalarTag tag else tag := by
  unfold validateTag at h
  split at h
  · simp only [Out.ok.injEq] at h
    subst h
    refine ⟨by intro a b h; simp at h, by simp [scalarTag]⟩
  · next a b =>
    simp only at h
    split at h
    · next hc =>
      simp only [Out.ok.injEq] at h
      subst h
      simp only [Bool.not_not, Bool.and_eq_true, beq_iff_eq, List.isEmpty_iff] at hc
      obtain ⟨rfl, rfl, rfl⟩ := hc
      refine ⟨?_, by simp [scalarTag]⟩
      intro c d h
      simp only [Option.some.injEq, Prod.mk.injEq] at h
      obtain ⟨rfl, rfl⟩ := h
      exact hb
    · next hc =>
      split at h
      · simp at h
      · next hg =>
        simp only [Out.ok.injEq] at h
        subst h
        refine ⟨?_, ?_⟩
        · intro c d h
          simp only [Option.some.injEq, Prod.mk.injEq] at h
          obtain ⟨rfl, rfl⟩ := h
          have : (TagMap.get tags a).isSome = true := by
            cases hq : TagMap.get tags a <;> simp_all
          unfold TagMap.get at this
          rw [Option.isSome_map, List.find?_isSome] at this
          obtain ⟨⟨x, y⟩, hx, hy⟩ := this
          simp only [beq_iff_eq] at hy
          subst hy
          exact ⟨y, hx⟩
        · cases sc with
          | false => simp
          | true =>
            simp only [Bool.true_and, Bool.not_not, Bool.and_eq_true, beq_iff_eq,
              List.isEmpty_iff, not_and] at hc
            simp only [if_true, scalarTag, Option.some.injEq, Prod.mk.injEq]
            rw [if_neg]
            exact fun ⟨x, y⟩ => hc x y

/-- What `node` did is within the grammar: a node, then what the states below take. -/
def FitsNode (drive : Drive σ) (p0 : PeekReader σ) (acc : List TokenEntry) (p : Parser)
    (block : Bool) (k : NodeKind) (ev : Event) (s' : PS σ) : Prop :=
  s'.parser.done = p.done ∧ s'.parser.directives = p.directives ∧
  ∃ ts, Pops drive p0 (acc ++ ts) s'.tokens ∧
    ∀ us fs, Left s'.parser us fs →
      ∃ u v us' fs', TNode p.directives.tags block k u v ∧
        Rest p.directives.tags p.state.stack us' fs' ∧
        bare ts ++ us = u ++ us' ∧ ev.data :: fs = v ++ fs'

/-- `FitsNode` before the tag check. -/
def PreNode (drive : Drive σ) (p0 : PeekReader σ) (acc : List TokenEntry) (p : Parser)
    (block : Bool) (k : NodeKind) (ev : Event) (s' : PS σ) : Prop :=
  s'.parser.directives = p.directives ∧
  ∀ ev', validateEventTag p.directives.tags ev = .ok ev' →
    FitsNode drive p0 acc p block k ev' s'

/-- Tokens without content are known by their markers. -/
theorem token_of {e : TokenEntry} {m : Marker} (h : e.marker = m) {t : Token}
    (ht : match m with
      | .BlockSequenceStart => t = .BlockSequenceStart
      | .BlockMappingStart => t = .BlockMappingStart
      | .BlockEntry => t = .BlockEntry
      | .BlockEnd => t = .BlockEnd
      | .FlowSequenceStart => t = .FlowSequenceStart
      | .FlowSequenceEnd => t = .FlowSequenceEnd
      | .FlowMappingStart => t = .FlowMappingStart
      | .FlowMappingEnd => t = .FlowMappingEnd
      | .FlowEntry => t = .FlowEntry
      | .Key => t = .Key
      | .Value => t = .Value
      | .DocumentStart => t = .DocumentStart
      | .DocumentEnd => t = .DocumentEnd
      | .StreamEnd => t = .StreamEnd
      | _ => False) : e.wrap = .Token t := by
  obtain ⟨w, r⟩ := e
  rcases w with w | l
  · cases w <;> simp only [TokenEntry.marker, MaybeToken.marker, Marker.ofToken] at h <;>
      subst h <;> simp_all
  · simp only [TokenEntry.marker, MaybeToken.marker] at h
    subst h
    simp at ht

theorem bare_append (a b : List TokenEntry) : bare (a ++ b) = bare a ++ bare b := by simp

theorem pop_eq {p : Parser} {q : State} {qs : List State} (h : p.state.stack = q :: qs) :
    p.state.pop = ⟨q, qs⟩ := by
  simp [StateMachine.pop, h]

theorem nodeContent_so {p0 : PeekReader σ} {acc ps : List TokenEntry} {s : PS σ}
    (h : Tr drive p0 (acc ++ ps) s) {block : Bool} {k : NodeKind} {n : Nat} {anchor : Option Str}
    {tag : Option (Str × Str)} (hps : TProps (bare ps) anchor tag) (hb : Bang s.parser)
    (hst : s.parser.state.stack ≠ []) :
    wp True (nodeContent drive block k n anchor tag) s
      (PreNode drive p0 acc s.parser block k) := by
  obtain ⟨q, qs, hq⟩ := List.exists_cons_of_ne_nil hst
  unfold nodeContent
  rw [wp_bind]
  refine tr_peek h fun e s1 h1 h2 h3 h4 => ?_
  simp only
  have himpl : wp True
      (if (anchor.isSome || tag.isSome) = true then do
        popState
        pure { start := n, stop := e.readAt
               data := .Scalar { anchor, tag, kind := k } ScalarLike.empty }
      else (SO.fail .MissingNode : PM σ Event)) s1 (PreNode drive p0 acc s.parser block k) := by
    split
    · next hs =>
      simp only [wp_bind, wp_popState, wp_pure]
      refine ⟨by simp [h1], ?_⟩
      intro ev' hv
      simp only [validateEventTag, Out.bind_eq_ok, Out.pure_eq, Out.ok.injEq] at hv
      obtain ⟨r, hr, rfl⟩ := hv
      obtain ⟨hu, rfl⟩ := validateTag_so hb hr
      refine ⟨by simp [h1], by simp [h1], ps, h2, ?_⟩
      intro us fs hl
      simp only [h1, pop_eq hq] at hl
      refine ⟨bare ps, _, us, fs, .empty block k hps hu ?_, by rw [hq]; exact hl, rfl, rfl⟩
      intro hn
      rw [hn] at hps
      cases hps
      simp at hs
    · simp
  split
  · next hm =>
    simp only [wp_bind, wp_setTop, wp_pure]
    refine ⟨by simp [h1], ?_⟩
    intro ev' hv
    simp only [validateEventTag, Out.bind_eq_ok, Out.pure_eq, Out.ok.injEq] at hv
    obtain ⟨r, hr, rfl⟩ := hv
    obtain ⟨hu, rfl⟩ := validateTag_so hb hr
    refine ⟨by simp [h1], by simp [h1], ps, h2, ?_⟩
    rintro us fs ⟨u, v, us', fs', ⟨ts, rfl, hk⟩, hr, rfl, rfl⟩
    simp only [h1, StateMachine.setTop] at hk hr
    exact ⟨_, _, us', fs', .flowSeq block k hps hu hk, hr, by simp, by simp⟩
  · next hm =>
    simp only [wp_bind, wp_setTop, wp_pure]
    refine ⟨by simp [h1], ?_⟩
    intro ev' hv
    simp only [validateEventTag, Out.bind_eq_ok, Out.pure_eq, Out.ok.injEq] at hv
    obtain ⟨r, hr, rfl⟩ := hv
    obtain ⟨hu, rfl⟩ := validateTag_so hb hr
    refine ⟨by simp [h1], by simp [h1], ps, h2, ?_⟩
    rintro us fs ⟨u, v, us', fs', ⟨ts, rfl, hk⟩, hr, rfl, rfl⟩
    simp only [h1, StateMachine.setTop] at hk hr
    exact ⟨_, _, us', fs', .flowMap block k hps hu hk, hr, by simp, by simp⟩
  · next hm =>
    split
    · next hb' =>
      subst hb'
      simp only [wp_bind, wp_setTop, wp_pure]
      refine ⟨by simp [h1], ?_⟩
      intro ev' hv
      simp only [validateEventTag, Out.bind_eq_ok, Out.pure_eq, Out.ok.injEq] at hv
      obtain ⟨r, hr, rfl⟩ := hv
      obtain ⟨hu, rfl⟩ := validateTag_so hb hr
      refine ⟨by simp [h1], by simp [h1], ps, h2, ?_⟩
      rintro us fs ⟨u, v, us', fs', ⟨ts, rfl, hk⟩, hr, rfl, rfl⟩
      simp only [h1, StateMachine.setTop] at hk hr
      exact ⟨_, _, us', fs', .blockSeq k hps hu hk, hr, by simp, by simp⟩
    · exact himpl
  · next hm =>
    split
    · next hb' =>
      subst hb'
      simp only [wp_bind, wp_setTop, wp_pure]
      refine ⟨by simp [h1], ?_⟩
      intro ev' hv
      simp only [validateEventTag, Out.bind_eq_ok, Out.pure_eq, Out.ok.injEq] at hv
      obtain ⟨r, hr, rfl⟩ := hv
      obtain ⟨hu, rfl⟩ := validateTag_so hb hr
      refine ⟨by simp [h1], by simp [h1], ps, h2, ?_⟩
      rintro us fs ⟨u, v, us', fs', ⟨ts, rfl, hk⟩, hr, rfl, rfl⟩
      simp only [h1, StateMachine.setTop] at hk hr
      exact ⟨_, _, us', fs', .blockMap k hps hu hk, hr, by simp, by simp⟩
    · exact himpl
  · next hm =>
    rw [wp_bind]
    unfold consumeScalar
    rw [wp_bind]
    refine tr_popP h2 h3 fun s2 g1 g2 => ?_
    have key : ∀ c, TScalar e.wrap c → PreNode drive p0 acc s.parser block k
        { start := n, stop := e.readAt, data := .Scalar { anchor, tag, kind := k } c }
        { s2 with parser := { s2.parser with state := s2.parser.state.pop } } := by
      intro c hc
      refine ⟨by simp [h1, g1], ?_⟩
      intro ev' hv
      simp only [validateEventTag, Out.bind_eq_ok, Out.pure_eq, Out.ok.injEq] at hv
      obtain ⟨r, hr, rfl⟩ := hv
      obtain ⟨hu, rfl⟩ := validateTag_so hb hr
      refine ⟨by simp [h1, g1], by simp [h1, g1], ps ++ [e], by simpa using g2, ?_⟩
      intro us fs hl
      simp only [h1, g1, pop_eq hq] at hl
      refine ⟨_, _, us, fs, .scalar block k hps hu hc, by rw [hq]; exact hl, by simp, by simp⟩
    rcases marker_scalar hm with ⟨d, st, hw⟩ | ⟨l, hw⟩
    · rw [hw] at key ⊢
      simp only [wp_bind, wp_popState, wp_pure]
      exact key _ (.eager d st)
    · rw [hw] at key ⊢
      simp only [wp_bind, wp_popState, wp_pure]
      exact key _ (.deferred l)
  · exact himpl

theorem nodeEvent_so {p0 : PeekReader σ} {acc : List TokenEntry} {s : PS σ}
    (h : Tr drive p0 acc s) {block : Bool} {k : NodeKind} (hb : Bang s.parser)
    (hst : s.parser.state.stack ≠ []) :
    wp True (nodeEvent drive block k) s (PreNode drive p0 acc s.parser block k) := by
  obtain ⟨q, qs, hq⟩ := List.exists_cons_of_ne_nil hst
  unfold nodeEvent
  rw [wp_bind]
  refine tr_peek h fun e s1 h1 h2 h3 h4 => ?_
  split
  · next hm =>
    obtain ⟨a, hw⟩ := marker_alias hm
    rw [wp_bind, wp_popState, wp_bind]
    unfold consumeAlias
    rw [wp_bind]
    refine tr_popP (acc := acc) (e := e) h2 h3 fun s2 g1 g2 => ?_
    rw [hw]
    simp only [wp_pure]
    refine ⟨by simp [g1, h1], ?_⟩
    intro ev' hv
    simp only [validateEventTag, Out.pure_eq, Out.ok.injEq] at hv
    subst hv
    refine ⟨by simp [g1, h1], by simp [g1, h1], [e], g2, ?_⟩
    intro us fs hl
    simp only [g1, h1, pop_eq hq] at hl
    exact ⟨_, _, us, fs, .ref block k a, by rw [hq]; exact hl, by simp [hw], by simp⟩
  · rw [wp_bind]
    refine wp_mono (nodeProperties_so h2) ?_
    rintro ⟨n, a, t⟩ s2 ⟨g1, ps, g2, g3⟩
    have hp : s2.parser = s.parser := g1.trans h1
    rw [← hp]
    exact nodeContent_so g2 g3 (by rw [hp]; exact hb) (by rw [hp]; exact hst)

theorem node_so {p0 : PeekReader σ} {acc : List TokenEntry} {s : PS σ}
    (h : Tr drive p0 acc s) {block : Bool} {k : NodeKind} (hb : Bang s.parser)
    (hst : s.parser.state.stack ≠ []) :
    wp True (node drive block k) s fun ev s' =>
      ∃ e, ev = some e ∧ FitsNode drive p0 acc s.parser block k e s' := by
  unfold node
  rw [wp_bind]
  refine wp_mono (nodeEvent_so h hb hst) ?_
  rintro ev s' ⟨hd, hf⟩
  rw [wp_bind, wp_get, wp_bind, wp_lift]
  cases hv : validateEventTag s'.parser.directives.tags ev with
  | ok e' =>
    simp only [wp_pure]
    rw [hd] at hv
    exact ⟨e', rfl, hf _ hv⟩
  | err => trivial
  | panic => trivial
  | diverge => trivial

/-- A node, then what the states below take. -/
def AfterNode (p : Parser) (block : Bool) (k : NodeKind) (ss : List State) (us : List MaybeToken)
    (fs : List EventData) : Prop :=
  ∃ u v us' fs', TNode p.directives.tags block k u v ∧ Rest p.directives.tags ss us' fs' ∧
    us = u ++ us' ∧ fs = v ++ fs'

/-- `node` in the state itself. -/
theorem node_fits {p0 : PeekReader σ} {acc : List TokenEntry} {s s1 : PS σ}
    (h : Tr drive p0 acc s1) (hs : s1.parser = s.parser) {block : Bool} {k : NodeKind}
    (hb : Bang s.parser) (hst : s.parser.state.stack ≠ [])
    (hk : ∀ us fs, AfterNode s.parser block k s.parser.state.stack us fs →
      Left s.parser (bare acc ++ us) fs) :
    wp True (node drive block k) s1 (Fits drive p0 s.parser) := by
  refine wp_mono (node_so h (by rw [hs]; exact hb) (by rw [hs]; exact hst)) ?_
  rintro _ s' ⟨e, rfl, g1, g2, ts, g3, g4⟩
  rw [hs] at g1 g2 g4
  refine ⟨g1, ?_, _, g3, ?_⟩
  · unfold Bang; rw [g2]; exact hb
  · intro us fs _ hl
    rw [bare_append, List.append_assoc]
    exact hk _ _ (g4 _ _ hl)

/-- `node` after a state push. -/
theorem push_fits {p0 : PeekReader σ} {acc : List TokenEntry} {s s1 : PS σ} {u : State}
    (h : Tr drive p0 acc s1) (hs : s1.parser = s.parser) {block : Bool} {k : NodeKind}
    (hb : Bang s.parser)
    (hk : ∀ us fs, AfterNode s.parser block k (u :: s.parser.state.stack) us fs →
      Left s.parser (bare acc ++ us) fs) :
    wp True (do pushState u; node drive block k) s1 (Fits drive p0 s.parser) := by
  rw [wp_bind, wp_pushState]
  refine wp_mono (node_so (s := { s1 with parser := { s1.parser with state := s1.parser.state.push u } })
    (acc := acc) h (by simpa [Bang, hs] using hb) (by simp [StateMachine.push])) ?_
  rintro _ s' ⟨e, rfl, g1, g2, ts, g3, g4⟩
  simp only [StateMachine.push, hs] at g1 g2 g4
  refine ⟨g1, ?_, _, g3, ?_⟩
  · unfold Bang; rw [g2]; exact hb
  · intro us fs _ hl
    rw [bare_append, List.append_assoc]
    exact hk _ _ (g4 _ _ hl)

/-- An event that moves to `u`. -/
theorem move_fits {p0 : PeekReader σ} {acc : List TokenEntry} {s s1 : PS σ} {u : State} {e : Event}
    (h : Tr drive p0 acc s1) (hs : s1.parser = s.parser) (hb : Bang s.parser)
    (hk : ∀ us fs, Ahd s1 us → K s.parser.directives.tags u us fs →
      K s.parser.directives.tags s.parser.state.top (bare acc ++ us) (e.data :: fs)) :
    wp True (do setTop u; pure (some e)) s1 (Fits drive p0 s.parser) := by
  simp only [wp_bind, wp_setTop, wp_pure]
  refine ⟨by simp [hs], by simpa [Bang, hs] using hb, acc, h, ?_⟩
  rintro us fs ha ⟨u, v, us', fs', g1, g2, rfl, rfl⟩
  simp only [StateMachine.setTop, hs] at g1 g2
  refine ⟨_, _, us', fs', hk u v ?_ g1, g2, by simp, by simp⟩
  intro x hx
  rcases ha x hx with h | ⟨l, h⟩
  · exact .inl (List.append_eq_nil_iff.mp h).1
  · cases u with
    | nil => exact .inl rfl
    | cons a u => simp only [List.cons_append, List.cons.injEq] at h; exact .inr ⟨u, by rw [h.1]⟩

/-- The end of a collection. -/
theorem close_fits {p0 : PeekReader σ} {acc : List TokenEntry} {s s1 : PS σ} {e : Event}
    (h : Tr drive p0 acc s1) (hs : s1.parser = s.parser) (hb : Bang s.parser)
    (hst : s.parser.state.stack ≠ [])
    (hk : K s.parser.directives.tags s.parser.state.top (bare acc) [e.data]) :
    wp True (do popState; pure (some e)) s1 (Fits drive p0 s.parser) := by
  obtain ⟨q, qs, hq⟩ := List.exists_cons_of_ne_nil hst
  simp only [wp_bind, wp_popState, wp_pure]
  refine ⟨by simp [hs], by simpa [Bang, hs] using hb, acc, h, ?_⟩
  intro us fs _ hl
  simp only [hs, pop_eq hq] at hl
  exact ⟨_, _, us, fs, hk, by rw [hq]; exact hl, by simp, by simp⟩

/-- Taking the pending start token. -/
theorem popFirst_so {s : PS σ} {b : Bool} {m : Marker} (hf : First s)
    (hb : b = true → firstTok s.parser.state.top = some m) :
    wp True (popFirst drive b) s fun _ s' => s'.parser = s.parser ∧
      ∃ acc, Tr drive s.tokens acc s' ∧
        (b = false ∧ acc = [] ∨ b = true ∧ ∃ e, acc = [e] ∧ e.marker = m) := by
  unfold popFirst
  split
  · next hb' =>
    obtain ⟨e, he, hem⟩ := hf.tok _ (hb hb')
    rw [wp_bind]
    refine tr_popP (Pops.nil _) he fun s1 h1 h2 => ?_
    exact ⟨h1, _, h2, .inr ⟨hb', e, rfl, hem⟩⟩
  · next hb' => exact ⟨rfl, [], .nil _, .inl ⟨by simpa using hb', rfl⟩⟩

theorem peekPopFirst_so {s : PS σ} {b : Bool} {m : Marker} (hf : First s)
    (hb : b = true → firstTok s.parser.state.top = some m) :
    wp True (peekPopFirst drive b) s fun _ s' => s'.parser = s.parser ∧
      ∃ acc, Tr drive s.tokens acc s' ∧
        (b = false ∧ acc = [] ∨ b = true ∧ ∃ e, acc = [e] ∧ e.marker = m) := by
  unfold peekPopFirst
  split
  · next hb' =>
    obtain ⟨e, he, hem⟩ := hf.tok _ (hb hb')
    rw [wp_bind]
    refine tr_peek (Pops.nil _) fun e1 s1 h1 h2 h3 h4 => ?_
    obtain rfl := h4 _ he
    rw [wp_bind]
    refine tr_popP h2 h3 fun s2 g1 g2 => ?_
    exact ⟨g1.trans h1, _, g2, .inr ⟨hb', e1, rfl, hem⟩⟩
  · next hb' => exact ⟨rfl, [], .nil _, .inl ⟨by simpa using hb', rfl⟩⟩

theorem popFlowEntry_so {p0 : PeekReader σ} {acc : List TokenEntry} {s : PS σ} {b : Bool}
    {e : TokenEntry} {er : ParseError} (h : Tr drive p0 acc s) (hp : s.tokens.peeked = some e) :
    wp True (popFlowEntry drive b e er) s fun _ s' => s'.parser = s.parser ∧
      (b = true ∧ s' = s ∨
        b = false ∧ e.wrap = .Token .FlowEntry ∧ Tr drive p0 (acc ++ [e]) s') := by
  unfold popFlowEntry
  split
  · next hb => exact ⟨rfl, .inl ⟨hb, rfl⟩⟩
  · next hb =>
    split
    · next hm =>
      rw [wp_bind]
      refine tr_popP h hp fun s1 h1 h2 => ?_
      exact ⟨h1, .inr ⟨by simpa using hb, token_of hm rfl, h2⟩⟩
    · simp

/-! ## The states -/

theorem empty_data (n : Nat) (k : NodeKind) : (emptyScalar n k).data = leftOut k := rfl

variable {s : PS σ}

theorem blockSequenceEntry_so (hf : First s) {b : Bool} {ss : List State} (hb : Bang s.parser)
    (hst : s.parser.state = ⟨.BlockSequenceEntry b, ss⟩) :
    wp True (blockSequenceEntry drive b) s (Fits drive s.tokens s.parser) := by
  obtain ⟨q, qs, hq, -, -⟩ := hf.good.ne (by rw [hst]; rfl)
  have hne : s.parser.state.stack ≠ [] := by rw [hq]; simp
  have htop : s.parser.state.top = .BlockSequenceEntry b := by rw [hst]
  have hK : ∀ acc us fs, (b = false ∧ acc = [] ∨
      b = true ∧ ∃ e : TokenEntry, acc = [e] ∧ e.marker = .BlockSequenceStart) →
      TBlockSeq s.parser.directives.tags us fs →
      K s.parser.directives.tags (.BlockSequenceEntry b) (bare acc ++ us) fs := by
    rintro acc us fs (⟨rfl, rfl⟩ | ⟨rfl, e, rfl, he⟩) h
    · exact h
    · exact ⟨us, by simp [token_of he rfl], h⟩
  unfold blockSequenceEntry
  rw [wp_bind]
  refine wp_mono (popFirst_so (m := .BlockSequenceStart) hf (by rw [hst]; rintro rfl; rfl)) ?_
  rintro _ s1 ⟨h1, acc, h2, hc⟩
  rw [wp_bind]
  refine tr_peek h2 fun e s2 g1 g2 g3 _ => ?_
  split
  · next hm =>
    have hw := token_of hm rfl
    rw [wp_bind]
    refine tr_popP g2 g3 fun s3 k1 k2 => ?_
    rw [wp_bind]
    refine tr_peek k2 fun e' s4 l1 l2 l3 _ => ?_
    split
    · refine move_fits l2 (by simp [*]) hb fun us fs _ h => ?_
      rw [htop, bare_append, List.append_assoc]
      refine hK _ _ _ hc ?_
      simpa [hw, empty_data] using TBlockSeq.entry (.leftOut true .Entry) h
    · refine push_fits l2 (by simp [*]) hb ?_
      rintro us fs ⟨u, v, us', fs', hn, ⟨x, y, us'', fs'', hx, hr, rfl, rfl⟩, rfl, rfl⟩
      refine ⟨bare acc ++ .Token .BlockEntry :: (u ++ x), v ++ y, us'', fs'', ?_, hr, by simp [hw],
        by simp⟩
      rw [htop]
      exact hK _ _ _ hc (.entry (.node hn) hx)
  · next hm =>
    have hw := token_of hm rfl
    rw [wp_bind]
    refine tr_popP g2 g3 fun s3 k1 k2 => ?_
    refine close_fits k2 (by simp [*]) hb hne ?_
    rw [htop, bare_append]
    refine hK _ _ _ hc ?_
    simpa [hw] using TBlockSeq.close
  · simp

theorem blockMappingKey_so (hf : First s) {b : Bool} {ss : List State} (hb : Bang s.parser)
    (hst : s.parser.state = ⟨.BlockMappingKey b, ss⟩) :
    wp True (blockMappingKey drive b) s (Fits drive s.tokens s.parser) := by
  obtain ⟨q, qs, hq, -, -⟩ := hf.good.ne (by rw [hst]; rfl)
  have hne : s.parser.state.stack ≠ [] := by rw [hq]; simp
  have htop : s.parser.state.top = .BlockMappingKey b := by rw [hst]
  have hK : ∀ acc us fs, (b = false ∧ acc = [] ∨
      b = true ∧ ∃ e : TokenEntry, acc = [e] ∧ e.marker = .BlockMappingStart) →
      TBlockMap s.parser.directives.tags us fs →
      K s.parser.directives.tags (.BlockMappingKey b) (bare acc ++ us) fs := by
    rintro acc us fs (⟨rfl, rfl⟩ | ⟨rfl, e, rfl, he⟩) h
    · exact h
    · exact ⟨us, by simp [token_of he rfl], h⟩
  unfold blockMappingKey
  rw [wp_bind]
  refine wp_mono (peekPopFirst_so (m := .BlockMappingStart) hf (by rw [hst]; rintro rfl; rfl)) ?_
  rintro _ s1 ⟨h1, acc, h2, hc⟩
  rw [wp_bind]
  refine tr_peek h2 fun e s2 g1 g2 g3 _ => ?_
  split
  · next hm =>
    have hw := token_of hm rfl
    rw [wp_bind]
    refine tr_popP g2 g3 fun s3 k1 k2 => ?_
    rw [wp_bind]
    refine tr_peek k2 fun e' s4 l1 l2 l3 _ => ?_
    split
    · refine push_fits l2 (by simp [*]) hb ?_
      rintro us fs ⟨u, v, us', fs', hn, ⟨x, y, us'', fs'', ⟨a, c, ts, es, ha, ht, rfl, rfl⟩, hr,
        rfl, rfl⟩, rfl, rfl⟩
      refine ⟨bare acc ++ .Token .Key :: (u ++ (a ++ ts)), v ++ (c ++ es), us'', fs'', ?_, hr,
        by simp [hw], by simp⟩
      rw [htop]
      exact hK _ _ _ hc (.pair (.node hn) ha ht)
    · refine move_fits l2 (by simp [*]) hb ?_
      rintro us fs _ ⟨a, c, ts, es, ha, ht, rfl, rfl⟩
      rw [htop, bare_append, List.append_assoc]
      refine hK _ _ _ hc ?_
      simpa [hw, empty_data] using TBlockMap.pair (.leftOut true .Key) ha ht
  · next hm =>
    have hw := token_of hm rfl
    rw [wp_bind]
    refine tr_popP g2 g3 fun s3 k1 k2 => ?_
    refine close_fits k2 (by simp [*]) hb hne ?_
    rw [htop, bare_append]
    refine hK _ _ _ hc ?_
    simpa [hw] using TBlockMap.close
  · simp

theorem blockMappingValue_so {ss : List State} (hb : Bang s.parser)
    (hst : s.parser.state = ⟨.BlockMappingValue, ss⟩) :
    wp True (blockMappingValue drive) s (Fits drive s.tokens s.parser) := by
  have htop : s.parser.state.top = .BlockMappingValue := by rw [hst]
  unfold blockMappingValue
  rw [wp_bind]
  refine tr_peek (Pops.nil _) fun e s2 g1 g2 g3 _ => ?_
  split
  · next hm =>
    have hw := token_of hm rfl
    rw [wp_bind]
    refine tr_popP g2 g3 fun s3 k1 k2 => ?_
    rw [wp_bind]
    refine tr_peek k2 fun e' s4 l1 l2 l3 _ => ?_
    split
    · refine push_fits l2 (by simp [*]) hb ?_
      rintro us fs ⟨u, v, us', fs', hn, ⟨x, y, us'', fs'', hx, hr, rfl, rfl⟩, rfl, rfl⟩
      refine ⟨.Token .Value :: u ++ x, v ++ y, us'', fs'', ?_, hr, by simp [hw], by simp⟩
      rw [htop]
      exact ⟨_, _, _, _, .value (.node hn), hx, rfl, rfl⟩
    · refine move_fits l2 (by simp [*]) hb fun us fs _ h => ?_
      rw [htop]
      exact ⟨_, _, _, _, .value (.leftOut true .Value), h, by simp [hw], rfl⟩
  · refine move_fits g2 (by simp [*]) hb fun us fs _ h => ?_
    rw [htop]
    exact ⟨_, _, _, _, .leftOut true, h, by simp, rfl⟩

theorem fetchEnd_so {p0 : PeekReader σ} {acc : List TokenEntry} {s1 : PS σ} {e : TokenEntry}
    (h : Tr drive p0 acc s1) (hs : s1.parser = s.parser) (hb : Bang s.parser)
    (hst : s.parser.state.stack ≠ []) (hp : s1.tokens.peeked = some e) {n : Nat}
    (hk : K s.parser.directives.tags s.parser.state.top (bare acc ++ [e.wrap]) [.SequenceEnd]) :
    wp True (do let ev ← fetchSequenceEnd drive n n; pure (some ev)) s1
      (Fits drive p0 s.parser) := by
  obtain ⟨q, qs, hq⟩ := List.exists_cons_of_ne_nil hst
  unfold fetchSequenceEnd
  simp only [wp_bind, wp_popState]
  refine tr_popP (acc := acc) (e := e) h hp fun s2 g1 g2 => ?_
  simp only [wp_pure]
  refine ⟨by simp [g1, hs], by simpa [Bang, g1, hs] using hb, _, g2, ?_⟩
  intro us fs _ hl
  simp only [g1, hs, pop_eq hq] at hl
  refine ⟨_, _, us, fs, hk, by rw [hq]; exact hl, by simp, by simp⟩

theorem fetchMapEnd_so {p0 : PeekReader σ} {acc : List TokenEntry} {s1 : PS σ} {e : TokenEntry}
    (h : Tr drive p0 acc s1) (hs : s1.parser = s.parser) (hb : Bang s.parser)
    (hst : s.parser.state.stack ≠ []) (hp : s1.tokens.peeked = some e) {n : Nat}
    (hk : K s.parser.directives.tags s.parser.state.top (bare acc ++ [e.wrap]) [.MappingEnd]) :
    wp True (do let ev ← fetchMappingEnd drive n n; pure (some ev)) s1
      (Fits drive p0 s.parser) := by
  obtain ⟨q, qs, hq⟩ := List.exists_cons_of_ne_nil hst
  unfold fetchMappingEnd
  simp only [wp_bind, wp_popState]
  refine tr_popP (acc := acc) (e := e) h hp fun s2 g1 g2 => ?_
  simp only [wp_pure]
  refine ⟨by simp [g1, hs], by simpa [Bang, g1, hs] using hb, _, g2, ?_⟩
  intro us fs _ hl
  simp only [g1, hs, pop_eq hq] at hl
  refine ⟨_, _, us, fs, hk, by rw [hq]; exact hl, by simp, by simp⟩

theorem flowSequenceEntry_so (hf : First s) {b : Bool} {ss : List State} (hb : Bang s.parser)
    (hst : s.parser.state = ⟨.FlowSequenceEntry b, ss⟩) :
    wp True (flowSequenceEntry drive b) s (Fits drive s.tokens s.parser) := by
  obtain ⟨q, qs, hq, -, -⟩ := hf.good.ne (by rw [hst]; rfl)
  have hne : s.parser.state.stack ≠ [] := by rw [hq]; simp
  have htop : s.parser.state.top = .FlowSequenceEntry b := by rw [hst]
  have hK : ∀ acc us fs, (b = false ∧ acc = [] ∨
      b = true ∧ ∃ e : TokenEntry, acc = [e] ∧ e.marker = .FlowSequenceStart) →
      TFlowSeq s.parser.directives.tags b us fs →
      K s.parser.directives.tags (.FlowSequenceEntry b) (bare acc ++ us) fs := by
    rintro acc us fs (⟨rfl, rfl⟩ | ⟨rfl, e, rfl, he⟩) h
    · exact h
    · exact ⟨us, by simp [token_of he rfl], h⟩
  unfold flowSequenceEntry
  rw [wp_bind]
  refine wp_mono (popFirst_so (m := .FlowSequenceStart) hf (by rw [hst]; rintro rfl; rfl)) ?_
  rintro _ s1 ⟨h1, acc, h2, hc⟩
  rw [wp_bind]
  refine tr_peek h2 fun e s2 g1 g2 g3 _ => ?_
  split
  · rw [wp_bind]
    refine wp_mono (popFlowEntry_so g2 g3) ?_
    rintro _ s3 ⟨k1, hcc⟩
    -- the tokens taken so far, in front of an entry
    obtain ⟨cs, k2, hcs⟩ : ∃ cs, Tr drive s.tokens (acc ++ cs) s3 ∧
        (b = true ∧ cs = [] ∨ b = false ∧ bare cs = [.Token .FlowEntry]) := by
      rcases hcc with ⟨rfl, rfl⟩ | ⟨rfl, hw, k⟩
      · exact ⟨[], by simpa using g2, .inl ⟨rfl, rfl⟩⟩
      · exact ⟨[e], k, .inr ⟨rfl, by simp [hw]⟩⟩
    have hE : ∀ u v ts es, TFlowEntry s.parser.directives.tags u v →
        TFlowSeq s.parser.directives.tags false ts es →
        K s.parser.directives.tags (.FlowSequenceEntry b) (bare (acc ++ cs) ++ (u ++ ts))
          (v ++ es) := by
      intro u v ts es h1 h2
      rw [bare_append, List.append_assoc]
      refine hK _ _ _ hc ?_
      rcases hcs with ⟨rfl, rfl⟩ | ⟨rfl, hcs⟩
      · have := TFlowSeq.first h1 h2
        exact this
      · have := TFlowSeq.next h1 h2
        rw [hcs]; exact this
    rw [wp_bind]
    refine tr_peek k2 fun e' s4 l1 l2 l3 _ => ?_
    split
    · next hm =>
      have hw := token_of hm rfl
      rw [wp_bind]
      refine tr_popP l2 l3 fun s5 m1 m2 => ?_
      refine move_fits m2 (by simp [*]) hb ?_
      rintro us fs _ ⟨u, v, u', v', ts, es, hu, hv, ht, rfl, rfl⟩
      rw [htop]
      have := hE _ _ _ _ (.pair hu hv) ht
      simpa [hw] using this
    · split
      · refine push_fits l2 (by simp [*]) hb ?_
        rintro us fs ⟨u, v, us', fs', hn, ⟨x, y, us'', fs'', hx, hr, rfl, rfl⟩, rfl, rfl⟩
        refine ⟨_, _, us'', fs'', by rw [htop]; exact hE _ _ _ _ (.node hn) hx, hr, by simp,
          by simp⟩
      · next hm =>
        have hw := token_of (t := .FlowSequenceEnd) (m := .FlowSequenceEnd)
          (e := e') (by simpa using hm) rfl
        refine fetchEnd_so l2 (by simp [*]) hb hne l3 ?_
        rw [htop, bare_append, List.append_assoc]
        refine hK _ _ _ hc ?_
        rcases hcs with ⟨rfl, rfl⟩ | ⟨rfl, hcs⟩
        · rw [hw]; exact .close _
        · rw [hcs, hw]; exact .trailing
  · next hm =>
    have hw := token_of (t := .FlowSequenceEnd) (m := .FlowSequenceEnd)
      (e := e) (by simpa using hm) rfl
    refine fetchEnd_so g2 (by simp [*]) hb hne g3 ?_
    rw [htop]
    refine hK _ _ _ hc ?_
    rw [hw]; exact .close _

theorem flowSequenceEntryMappingKey_so {ss : List State} (hb : Bang s.parser)
    (hst : s.parser.state = ⟨.FlowSequenceMappingKey, ss⟩) :
    wp True (flowSequenceEntryMappingKey drive) s (Fits drive s.tokens s.parser) := by
  have htop : s.parser.state.top = .FlowSequenceMappingKey := by rw [hst]
  unfold flowSequenceEntryMappingKey
  rw [wp_bind]
  refine tr_peek (Pops.nil _) fun e s2 g1 g2 g3 _ => ?_
  split
  · refine push_fits g2 (by simp [*]) hb ?_
    rintro us fs ⟨u, v, us', fs', hn, ⟨x, y, us'', fs'', ⟨a, c, ts, es, ha, ht, rfl, rfl⟩, hr,
      rfl, rfl⟩, rfl, rfl⟩
    refine ⟨_, _, us'', fs'', by rw [htop]; exact ⟨u, v, a, c, ts, es, .node hn, ha, ht, rfl, rfl⟩,
      hr, by simp, by simp⟩
  · refine move_fits g2 (by simp [*]) hb ?_
    rintro us fs _ ⟨a, c, ts, es, ha, ht, rfl, rfl⟩
    rw [htop]
    exact ⟨[], _, a, c, ts, es, .leftOut false .Key, ha, ht, rfl, by simp [empty_data]⟩

theorem flowSequenceEntryMappingValue_so {ss : List State} (hb : Bang s.parser)
    (hst : s.parser.state = ⟨.FlowSequenceMappingValue, ss⟩) :
    wp True (flowSequenceEntryMappingValue drive) s (Fits drive s.tokens s.parser) := by
  have htop : s.parser.state.top = .FlowSequenceMappingValue := by rw [hst]
  unfold flowSequenceEntryMappingValue flowPairHasValue
  rw [wp_bind]
  refine tr_peek (Pops.nil _) fun e s2 g1 g2 g3 _ => ?_
  rw [wp_bind]
  split
  · next hm =>
    have hw := token_of hm rfl
    rw [wp_bind]
    refine tr_popP g2 g3 fun s3 k1 k2 => ?_
    rw [wp_bind]
    refine tr_peek k2 fun e' s4 l1 l2 l3 _ => ?_
    rw [wp_pure]
    split
    · refine push_fits l2 (by simp [*]) hb ?_
      rintro us fs ⟨u, v, us', fs', hn, ⟨x, y, us'', fs'', ⟨es, hx, rfl⟩, hr, rfl, rfl⟩, rfl, rfl⟩
      refine ⟨_, _, us'', fs'', by rw [htop]; exact ⟨_, v, x, es, .value (.node hn), hx, rfl, rfl⟩,
        hr, by simp [hw], by simp⟩
    · refine move_fits l2 (by simp [*]) hb ?_
      rintro us fs _ ⟨es, h, rfl⟩
      rw [htop]
      exact ⟨_, _, us, es, .value (.leftOut false .Value), h, by simp [hw], by simp [empty_data]⟩
  · rw [wp_pure]
    refine move_fits g2 (by simp [*]) hb ?_
    rintro us fs _ ⟨es, h, rfl⟩
    rw [htop]
    exact ⟨_, _, us, es, .leftOut false, h, by simp, by simp [empty_data]⟩

theorem flowSequenceEntryMappingEnd_so {ss : List State} (hb : Bang s.parser)
    (hst : s.parser.state = ⟨.FlowSequenceMappingEnd, ss⟩) :
    wp True (flowSequenceEntryMappingEnd drive) s (Fits drive s.tokens s.parser) := by
  have htop : s.parser.state.top = .FlowSequenceMappingEnd := by rw [hst]
  unfold flowSequenceEntryMappingEnd
  rw [wp_bind]
  refine tr_peek (Pops.nil _) fun e s2 g1 g2 g3 _ => ?_
  refine move_fits g2 (by simp [*]) hb fun us fs _ h => ?_
  rw [htop]
  exact ⟨fs, h, rfl⟩

theorem flowMappingKey_so (hf : First s) {b : Bool} {ss : List State} (hb : Bang s.parser)
    (hst : s.parser.state = ⟨.FlowMappingKey b, ss⟩) :
    wp True (flowMappingKey drive b) s (Fits drive s.tokens s.parser) := by
  obtain ⟨q, qs, hq, -, -⟩ := hf.good.ne (by rw [hst]; rfl)
  have hne : s.parser.state.stack ≠ [] := by rw [hq]; simp
  have htop : s.parser.state.top = .FlowMappingKey b := by rw [hst]
  have hK : ∀ acc us fs, (b = false ∧ acc = [] ∨
      b = true ∧ ∃ e : TokenEntry, acc = [e] ∧ e.marker = .FlowMappingStart) →
      TFlowMap s.parser.directives.tags b us fs →
      K s.parser.directives.tags (.FlowMappingKey b) (bare acc ++ us) fs := by
    rintro acc us fs (⟨rfl, rfl⟩ | ⟨rfl, e, rfl, he⟩) h
    · exact h
    · exact ⟨us, by simp [token_of he rfl], h⟩
  unfold flowMappingKey
  rw [wp_bind]
  refine wp_mono (popFirst_so (m := .FlowMappingStart) hf (by rw [hst]; rintro rfl; rfl)) ?_
  rintro _ s1 ⟨h1, acc, h2, hc⟩
  rw [wp_bind]
  refine tr_peek h2 fun e s2 g1 g2 g3 _ => ?_
  split
  · rw [wp_bind]
    refine wp_mono (popFlowEntry_so g2 g3) ?_
    rintro _ s3 ⟨k1, hcc⟩
    -- the tokens taken so far, in front of a pair
    obtain ⟨cs, k2, hcs⟩ : ∃ cs, Tr drive s.tokens (acc ++ cs) s3 ∧
        (b = true ∧ cs = [] ∨ b = false ∧ bare cs = [.Token .FlowEntry]) := by
      rcases hcc with ⟨rfl, rfl⟩ | ⟨rfl, hw, k⟩
      · exact ⟨[], by simpa using g2, .inl ⟨rfl, rfl⟩⟩
      · exact ⟨[e], k, .inr ⟨rfl, by simp [hw]⟩⟩
    have hE : ∀ u v ts es, TFlowPair s.parser.directives.tags u v →
        TFlowMap s.parser.directives.tags false ts es →
        K s.parser.directives.tags (.FlowMappingKey b) (bare (acc ++ cs) ++ (u ++ ts))
          (v ++ es) := by
      intro u v ts es h1 h2
      rw [bare_append, List.append_assoc]
      refine hK _ _ _ hc ?_
      rcases hcs with ⟨rfl, rfl⟩ | ⟨rfl, hcs⟩
      · have := TFlowMap.first h1 h2
        exact this
      · have := TFlowMap.next h1 h2
        rw [hcs]; exact this
    rw [wp_bind]
    refine tr_peek k2 fun e' s4 l1 l2 l3 _ => ?_
    split
    · next hm =>
      have hw := token_of hm rfl
      rw [wp_bind]
      refine tr_popP l2 l3 fun s5 m1 m2 => ?_
      rw [wp_bind]
      refine tr_peek m2 fun e'' s6 n1 n2 n3 _ => ?_
      split
      · refine push_fits n2 (by simp [*]) hb ?_
        rintro us fs ⟨u, v, us', fs', hn, ⟨x, y, us'', fs'', ⟨a, c, ts, es, ha, ht, rfl, rfl⟩, hr,
          rfl, rfl⟩, rfl, rfl⟩
        refine ⟨_, _, us'', fs'', by rw [htop]; exact hE _ _ _ _ (.pair (.node hn) ha) ht,
          hr, by simp [hw], by simp⟩
      · refine move_fits n2 (by simp [*]) hb ?_
        rintro us fs _ ⟨a, c, ts, es, ha, ht, rfl, rfl⟩
        rw [htop]
        have := hE _ _ _ _ (.pair (.leftOut false .Key) ha) ht
        simpa [hw, empty_data] using this
    · split
      · refine push_fits l2 (by simp [*]) hb ?_
        rintro us fs ⟨u, v, us', fs', hn, ⟨x, y, us'', fs'', ⟨es, hx, rfl⟩, hr, rfl, rfl⟩, rfl, rfl⟩
        refine ⟨_, _, us'', fs'', by rw [htop]; exact hE _ _ _ _ (.node hn) hx, hr, by simp,
          by simp⟩
      · next hm =>
        have hw := token_of (t := .FlowMappingEnd) (m := .FlowMappingEnd)
          (e := e') (by simpa using hm) rfl
        refine fetchMapEnd_so l2 (by simp [*]) hb hne l3 ?_
        rw [htop, bare_append, List.append_assoc]
        refine hK _ _ _ hc ?_
        rcases hcs with ⟨rfl, rfl⟩ | ⟨rfl, hcs⟩
        · rw [hw]; exact .close _
        · rw [hcs, hw]; exact .trailing
  · next hm =>
    have hw := token_of (t := .FlowMappingEnd) (m := .FlowMappingEnd)
      (e := e) (by simpa using hm) rfl
    refine fetchMapEnd_so g2 (by simp [*]) hb hne g3 ?_
    rw [htop]
    refine hK _ _ _ hc ?_
    rw [hw]; exact .close _

theorem flowMappingValue_so {b : Bool} {ss : List State} (hb : Bang s.parser)
    (hst : s.parser.state = ⟨.FlowMappingValue b, ss⟩) :
    wp True (flowMappingValue drive b) s (Fits drive s.tokens s.parser) := by
  have htop : s.parser.state.top = .FlowMappingValue b := by rw [hst]
  unfold flowMappingValue
  rw [wp_bind]
  refine tr_peek (Pops.nil _) fun e s2 g1 g2 g3 _ => ?_
  split
  · next hb' =>
    subst hb'
    refine move_fits g2 (by simp [*]) hb fun us fs _ h => ?_
    rw [htop]
    exact ⟨fs, h, rfl⟩
  · next hb' =>
    have hb' : b = false := by simpa using hb'
    subst hb'
    split
    · next hm =>
      have hw := token_of hm rfl
      rw [wp_bind]
      refine tr_popP g2 g3 fun s3 k1 k2 => ?_
      rw [wp_bind]
      refine tr_peek k2 fun e' s4 l1 l2 l3 _ => ?_
      split
      · refine push_fits l2 (by simp [*]) hb ?_
        rintro us fs ⟨u, v, us', fs', hn, ⟨x, y, us'', fs'', hx, hr, rfl, rfl⟩, rfl, rfl⟩
        refine ⟨_, _, us'', fs'', by rw [htop]; exact ⟨_, v, x, y, .value (.node hn), hx, rfl, rfl⟩,
          hr, by simp [hw], by simp⟩
      · refine move_fits l2 (by simp [*]) hb fun us fs _ h => ?_
        rw [htop]
        exact ⟨_, _, us, fs, .value (.leftOut false .Value), h, by simp [hw], rfl⟩
    · refine move_fits g2 (by simp [*]) hb fun us fs _ h => ?_
      rw [htop]
      exact ⟨_, _, us, fs, .leftOut false, h, by simp, rfl⟩

/-! ## Documents -/

theorem known_mem {ds : List MaybeToken} {v : Option Version} {tags : List (Str × Str)}
    (h : TDirectives ds v tags) {x : Str × Str} (hx : x ∈ knownTags) : x ∈ tags := by
  induction h with
  | nil => exact hx
  | version _ _ _ ih => exact ih
  | tag _ _ _ _ ih => exact List.mem_cons_of_mem _ ih

theorem scanDirectivesLoop_so {p0 : PeekReader σ} {acc dirs : List TokenEntry} {fuel : Nat}
    {s : PS σ} {stop : Nat} {seen : Bool} {d : Directives} {v : Option Version}
    (h : Tr drive p0 (acc ++ dirs) s) (hS : TDirectives (bare dirs) v d.tags)
    (hv : seen = v.isSome) (hd : d.version = v.getD { major := 1, minor := 2 }) :
    wp True (scanDirectivesLoop drive fuel stop seen d) s fun r s' => s'.parser = s.parser ∧
      ∃ dirs' v', Tr drive p0 (acc ++ dirs') s' ∧ TDirectives (bare dirs') v' r.2.tags ∧
        r.2.version = v'.getD { major := 1, minor := 2 } := by
  induction fuel generalizing s stop seen d dirs v with
  | zero => simp [scanDirectivesLoop]
  | succ n ih =>
    unfold scanDirectivesLoop
    rw [wp_bind]
    refine tr_peek h fun e s1 h1 h2 h3 h4 => ?_
    split
    · next hm =>
      obtain ⟨a, b, hw⟩ := marker_version hm
      split
      · next hseen =>
        have hvn : v = none := by
          rw [hv] at hseen
          cases v <;> simp_all
        subst hvn
        rw [wp_bind]
        unfold consumeVersion
        rw [wp_bind]
        refine tr_popP h2 h3 fun s2 g1 g2 => ?_
        rw [hw]
        simp only [wp_pure]
        rw [List.append_assoc] at g2
        refine wp_mono (ih (v := some ⟨a, b⟩) g2 ?_ rfl rfl) ?_
        · simpa [hw] using TDirectives.version a b hS
        · rintro r s' ⟨k1, k⟩
          exact ⟨by rw [k1, g1, h1], k⟩
      · simp
    · next hm =>
      obtain ⟨a, b, hw⟩ := marker_tagDirective hm
      rw [wp_bind]
      unfold consumeTagDirective
      rw [wp_bind]
      refine tr_popP h2 h3 fun s2 g1 g2 => ?_
      rw [hw]
      simp only [wp_pure]
      split
      · simp
      · next hn =>
        rw [List.append_assoc] at g2
        refine wp_mono (ih (v := v) g2 ?_ hv hd) ?_
        · simpa [hw, TagMap.insert] using TDirectives.tag a b hS (get_none hn)
        · rintro r s' ⟨k1, k⟩
          exact ⟨by rw [k1, g1, h1], k⟩
    · exact ⟨h1, dirs, v, h2, hS, hd⟩

theorem scanDocumentDirectives_so {p0 : PeekReader σ} {acc : List TokenEntry} {fuel : Nat}
    {s : PS σ} (h : Tr drive p0 acc s) :
    wp True (scanDocumentDirectives drive fuel) s fun r s' => s'.parser = s.parser ∧
      ∃ dirs v, Tr drive p0 (acc ++ dirs) s' ∧ TDirectives (bare dirs) v r.2.2.tags ∧
        r.2.2.version = v.getD { major := 1, minor := 2 } := by
  unfold scanDocumentDirectives
  rw [wp_bind]
  refine tr_peek h fun e s1 h1 h2 h3 _ => ?_
  rw [wp_bind]
  refine wp_mono (scanDirectivesLoop_so (dirs := []) (v := none) (by simpa using h2) .nil rfl rfl) ?_
  rintro ⟨stop, d⟩ s2 ⟨g1, dirs, v, g2, g3, g4⟩
  simp only [wp_pure]
  have hd : defaultTags.foldl (fun m p => TagMap.orInsert m p.1 p.2) d.tags = d.tags := by
    have h1 : (d.tags.get (bytes! "!")).isSome = true :=
      get_some (p := bytes! "!") (known_mem g3 (by decide))
    have h2 : (d.tags.get (bytes! "!!")).isSome = true :=
      get_some (p := bytes! "tag:yaml.org,2002:") (known_mem g3 (by decide))
    simp only [defaultTags, List.foldl_cons, List.foldl_nil, TagMap.orInsert, h1, h2, if_true]
  exact ⟨g1.trans h1, dirs, v, g2, by rw [hd]; exact g3, g4⟩

theorem scanDocumentDirectives_bare {p0 : PeekReader σ} {acc : List TokenEntry} {fuel : Nat}
    {s : PS σ} {e : TokenEntry} (h : Tr drive p0 acc s) (hp : s.tokens.peeked = some e)
    (hm : e.marker ≠ .VersionDirective ∧ e.marker ≠ .TagDirective) :
    wp True (scanDocumentDirectives drive fuel) s fun r s' => s'.parser = s.parser ∧
      Tr drive p0 acc s' ∧ s'.tokens.peeked = some e ∧
      r.2.2 = { version := { major := 1, minor := 2 }, tags := knownTags } := by
  unfold scanDocumentDirectives
  rw [wp_bind]
  refine tr_peek h fun e1 s1 h1 h2 h3 h4 => ?_
  obtain rfl := h4 _ hp
  rw [wp_bind]
  cases fuel with
  | zero => simp [scanDirectivesLoop]
  | succ n =>
    unfold scanDirectivesLoop
    rw [wp_bind]
    refine tr_peek h2 fun e2 s2 g1 g2 g3 g4 => ?_
    obtain rfl := g4 _ h3
    split
    · next h => exact absurd h hm.1
    · next h => exact absurd h hm.2
    · simp only [wp_pure]
      exact ⟨g1.trans h1, g2, g3, by decide⟩

theorem skipDocumentEnds_so {p0 : PeekReader σ} {ends : List TokenEntry} {fuel : Nat}
    {s : PS σ} (h : Tr drive p0 ends s) (he : ∃ n, bare ends = List.replicate n (.Token .DocumentEnd)) :
    wp True (skipDocumentEnds drive fuel) s fun _ s' => s'.parser = s.parser ∧
      ∃ ends', Tr drive p0 ends' s' ∧ ∃ n, bare ends' = List.replicate n (.Token .DocumentEnd) := by
  induction fuel generalizing s ends with
  | zero => simp [skipDocumentEnds]
  | succ n ih =>
    unfold skipDocumentEnds
    rw [wp_bind]
    refine tr_peek h fun e s1 h1 h2 h3 h4 => ?_
    split
    · next hm =>
      rw [wp_bind]
      refine tr_popP h2 h3 fun s2 g1 g2 => ?_
      refine wp_mono (ih g2 ?_) ?_
      · obtain ⟨n, hn⟩ := he
        exact ⟨n + 1, by rw [bare_append, hn, List.replicate_succ']; simp [token_of hm rfl]⟩
      · rintro _ s' ⟨k1, k⟩
        exact ⟨by rw [k1, g1, h1], k⟩
    · exact ⟨h1, ends, h2, he⟩

/-- A document start takes what the grammar says, extra `...` aside. -/
theorem start_of {i f : Bool} {tags : List (Str × Str)} {ends us : List MaybeToken}
    {fs : List EventData}
    (hends : i = true ∧ ends = [] ∨ i = false ∧ ∃ n, ends = List.replicate n (.Token .DocumentEnd))
    (h : TDocs i us fs) (hne : f = true → us ≠ [.Token .StreamEnd]) :
    K tags (.DocumentStart i f) (ends ++ us) fs := by
  rcases hends with ⟨rfl, rfl⟩ | ⟨rfl, n, rfl⟩
  · cases f with
    | false => exact h
    | true => exact fun enc => .docs enc h (hne rfl)
  · cases f with
    | false => exact ⟨n, us, rfl, h⟩
    | true => trivial

theorem docs_stream_end {b : Bool} {us : List MaybeToken} {fs : List EventData}
    (h : TDocs b us fs) (hb : b = false) (hu : us = [] ∨ ∃ l, us = .Token .StreamEnd :: l) :
    us = [.Token .StreamEnd] ∧ fs = [.StreamEnd] := by
  cases h with
  | done => exact ⟨rfl, rfl⟩
  | bare => cases hb
  | @explicit d u x ts v y es bare b version tags hd _ _ _ =>
    exfalso
    have : ∀ {d v tags}, TDirectives d v tags → d = [] ∨ ∃ m l, d = m :: l ∧
        m ≠ .Token .StreamEnd := by
      intro d v tags h
      induction h with
      | nil => exact .inl rfl
      | version a b _ ih =>
        rcases ih with rfl | ⟨m, l, rfl, hm⟩
        · exact .inr ⟨_, _, rfl, by simp⟩
        · exact .inr ⟨m, _, rfl, hm⟩
      | tag a b _ _ ih =>
        rcases ih with rfl | ⟨m, l, rfl, hm⟩
        · exact .inr ⟨_, _, rfl, by simp⟩
        · exact .inr ⟨m, _, rfl, hm⟩
    rcases this hd with rfl | ⟨m, l, rfl, hm⟩
    · simp at hu
    · simp at hu
      exact hm hu

theorem documentStart_so (hf : First s) {i f : Bool} {ss : List State} {fuel : Nat}
    (hst : s.parser.state = ⟨.DocumentStart i f, ss⟩) (hb : Bang s.parser) :
    wp True (documentStart drive fuel i f) s (Fits drive s.tokens s.parser) := by
  have hss : ss = [] := by
    have := hf.good
    rw [hst] at this
    cases ss with
    | nil => rfl
    | cons q qs => simp [Good, inDoc] at this
  subst hss
  unfold documentStart
  rw [wp_bind]
  have h0 : wp True (skipEndsIf drive fuel i) s fun _ s' => s'.parser = s.parser ∧
      ∃ ends, Tr drive s.tokens ends s' ∧ (i = true ∧ bare ends = [] ∨
        i = false ∧ ∃ n, bare ends = List.replicate n (.Token .DocumentEnd)) := by
    unfold skipEndsIf
    split
    · next hi => exact ⟨rfl, [], .nil _, .inl ⟨hi, rfl⟩⟩
    · next hi =>
      refine wp_mono (skipDocumentEnds_so (Pops.nil _) ⟨0, rfl⟩) ?_
      rintro _ s' ⟨k1, ends, k2, k3⟩
      exact ⟨k1, ends, k2, .inr ⟨by simpa using hi, k3⟩⟩
  refine wp_mono h0 ?_
  rintro _ s1 ⟨h1, ends, h2, hends⟩
  rw [wp_bind]
  refine tr_peek h2 fun e s2 g1 g2 g3 _ => ?_
  dsimp only
  split
  · next hc =>
    simp only [Bool.and_eq_true, Bool.not_eq_true', Bool.or_eq_false_iff,
      decide_eq_false_iff_not] at hc
    obtain ⟨hi, ⟨⟨hm1, hm2⟩, hm3⟩, hm4⟩ := hc
    subst hi
    rw [wp_bind]
    refine wp_mono (scanDocumentDirectives_bare g2 g3 ⟨hm2, hm1⟩) ?_
    rintro ⟨a, b, d⟩ s3 ⟨k1, k2, k3, k4⟩
    simp only at k4
    subst k4
    simp only [wp_bind, wp_pure, wp_setTop, wp_pushState, setDirectives, wp_modify]
    refine ⟨by simp [k1, g1, h1], ⟨bytes! "!", by simp [knownTags]⟩, ends, k2, ?_⟩
    simp only [Left, k1, g1, h1, hst, StateMachine.push, StateMachine.setTop]
    rintro us fs ha ⟨u, v, us', fs', hn, ⟨x, y, us'', fs'', ⟨b, x1, y1, ts, es, he, ht, rfl, rfl⟩,
      ⟨rfl, rfl⟩, rfl, rfl⟩, rfl, rfl⟩
    refine ⟨_, _, [], [], start_of hends (.bare hn he ht) ?_, ⟨rfl, rfl⟩, by simp, by simp⟩
    rintro - h
    rcases ha e k3 with h' | ⟨l, h'⟩
    · simp only [List.append_nil] at h'
      rw [h'] at h
      simp at h
    · simp only [List.append_nil] at h'
      rw [h'] at h
      simp only [List.cons.injEq] at h
      apply hm4
      simp [TokenEntry.marker, h.1, MaybeToken.marker, Marker.ofToken]
  · split
    · rw [wp_bind]
      refine wp_mono (scanDocumentDirectives_so g2) ?_
      rintro ⟨a, b, d⟩ s3 ⟨k1, dirs, v, k2, k3, k4⟩
      obtain ⟨dv, dt⟩ := d
      simp only at k3 k4
      subst k4
      unfold documentMarker
      simp only [wp_bind]
      refine tr_peek k2 fun e' s4 l1 l2 l3 l4 => ?_
      split
      · next hm =>
        have hw := token_of hm rfl
        rw [wp_bind]
        refine tr_popP l2 l3 fun s5 m1 m2 => ?_
        simp only [wp_pure, wp_setTop, wp_pushState, setDirectives, wp_modify]
        refine ⟨by simp [m1, l1, k1, g1, h1], ⟨bytes! "!", known_mem k3 (by decide)⟩, _, m2, ?_⟩
        simp only [Left, m1, l1, k1, g1, h1, hst, StateMachine.push, StateMachine.setTop]
        rintro us fs ha ⟨u, v', us', fs', hn, ⟨x, y, us'', fs'', ⟨b, x1, y1, ts, es, he, ht, rfl,
          rfl⟩, ⟨rfl, rfl⟩, rfl, rfl⟩, rfl, rfl⟩
        refine ⟨_, _, [], [], start_of hends (.explicit k3 hn he ht) ?_, ⟨rfl, rfl⟩, by simp [hw],
          by simp⟩
        rintro - h
        have : (MaybeToken.Token Token.DocumentStart) ∈ ([.Token .StreamEnd] : List MaybeToken) := by
          rw [← h]; simp
        simp at this
      · simp
    · next hm =>
      have hm : e.marker = .StreamEnd := by simpa using hm
      have hw := token_of hm rfl
      split
      · next hff =>
        subst hff
        rw [wp_bind]
        refine wp_mono (scanDocumentDirectives_bare g2 g3 (by simp [hm])) ?_
        rintro ⟨a, b, d⟩ s3 ⟨k1, k2, k3, k4⟩
        simp only at k4
        subst k4
        simp only [wp_bind, wp_pure, wp_setTop, setDirectives, wp_modify]
        refine ⟨by simp [k1, g1, h1], ⟨bytes! "!", by simp [knownTags]⟩, ends, k2, ?_⟩
        simp only [Left, k1, g1, h1, hst, StateMachine.setTop]
        rintro us fs ha ⟨u, v, us', fs', ⟨b, x1, y1, ts, es, he, ht, rfl, rfl⟩, ⟨rfl, rfl⟩, rfl, rfl⟩
        have ha := ha e k3
        rw [hw] at ha
        cases he with
        | explicit => simp at ha
        | implicit =>
          simp only [List.nil_append, List.append_nil] at ha
          obtain ⟨rfl, rfl⟩ := docs_stream_end ht rfl ha
          refine ⟨_, _, [], [], ?_, ⟨rfl, rfl⟩, by simp; rfl, by simp; rfl⟩
          rcases hends with ⟨rfl, hends⟩ | ⟨rfl, -⟩
          · rw [hends]
            exact fun enc => .empty enc
          · trivial
      · next hff =>
        have hff : f = false := by simpa using hff
        subst hff
        simp only [wp_bind, wp_pure, wp_setTop]
        refine ⟨by simp [g1, h1], by simpa [Bang, g1, h1] using hb, ends, g2, ?_⟩
        simp only [Left, g1, h1, hst, StateMachine.setTop]
        rintro us fs ha ⟨u, v, us', fs', ⟨rfl, rfl⟩, ⟨rfl, rfl⟩, rfl, rfl⟩
        exact ⟨_, _, [], [], start_of hends (.done i) (by simp), ⟨rfl, rfl⟩, by simp, by simp⟩

theorem documentEnd_so {ss : List State} (hst : s.parser.state = ⟨.DocumentEnd, ss⟩)
    (hb : Bang s.parser) :
    wp True (documentEnd drive) s (Fits drive s.tokens s.parser) := by
  have htop : s.parser.state.top = .DocumentEnd := by rw [hst]
  unfold documentEnd implicitEnd
  rw [wp_bind]
  refine tr_peek (Pops.nil _) fun e s1 h1 h2 h3 _ => ?_
  rw [wp_bind]
  split
  · next hm =>
    have hw := token_of hm rfl
    rw [wp_bind]
    refine tr_popP h2 h3 fun s2 g1 g2 => ?_
    rw [wp_pure]
    refine move_fits g2 (by simp [*]) hb fun us fs _ h => ?_
    rw [htop]
    exact ⟨true, _, _, us, fs, .explicit, h, by simp [hw], rfl⟩
  · next hm =>
    rw [wp_pure]
    refine move_fits h2 (by simp [*]) hb ?_
    rintro us fs ha ⟨n, us', rfl, h⟩
    rw [htop]
    cases n with
    | zero => exact ⟨false, _, _, us', fs, .implicit, h, by simp, rfl⟩
    | succ n =>
      exfalso
      rcases ha e h3 with h | ⟨l, h⟩
      · simp [List.replicate_succ] at h
      · simp only [List.replicate_succ, List.cons_append, List.cons.injEq] at h
        apply hm
        simp [TokenEntry.marker, ← h.1, MaybeToken.marker, Marker.ofToken]

theorem explicitDocumentContent_so (hf : First s) {ss : List State} (hb : Bang s.parser)
    (hst : s.parser.state = ⟨.DocumentContent, ss⟩) :
    wp True (explicitDocumentContent drive) s (Fits drive s.tokens s.parser) := by
  obtain ⟨q, qs, hq, -, -⟩ := hf.good.ne (by rw [hst]; rfl)
  have hne : s.parser.state.stack ≠ [] := by rw [hq]; simp
  have htop : s.parser.state.top = .DocumentContent := by rw [hst]
  unfold explicitDocumentContent
  rw [wp_bind]
  refine tr_peek (Pops.nil _) fun e s1 h1 h2 h3 _ => ?_
  split
  · simp only [wp_bind, wp_pure, wp_popState]
    refine ⟨by simp [h1], by simpa [Bang, h1] using hb, [], h2, ?_⟩
    intro us fs _ hl
    simp only [h1, pop_eq hq] at hl
    exact ⟨[], [], us, fs, by rw [htop]; exact .nothing, by rw [hq]; exact hl, rfl, rfl⟩
  · refine node_fits h2 h1 hb hne ?_
    rintro us fs ⟨u, v, us', fs', hn, hr, rfl, rfl⟩
    exact ⟨u, v, us', fs', by rw [htop]; exact .node hn, hr, rfl, rfl⟩

theorem streamStart_so {ss : List State} (hst : s.parser.state = ⟨.StreamStart, ss⟩)
    (hb : Bang s.parser) :
    wp True (streamStart drive) s (Fits drive s.tokens s.parser) := by
  have htop : s.parser.state.top = .StreamStart := by rw [hst]
  unfold streamStart
  rw [wp_bind]
  refine tr_peek (Pops.nil _) fun e s1 h1 h2 h3 _ => ?_
  split
  · next hm =>
    obtain ⟨enc, hw⟩ := marker_streamStart hm
    rw [wp_bind]
    unfold consumeStreamStart
    rw [wp_bind]
    refine tr_popP h2 h3 fun s2 g1 g2 => ?_
    rw [hw]
    simp only [wp_pure]
    refine move_fits g2 (by simp [*]) hb fun us fs _ h => ?_
    rw [htop]
    simpa [hw, K] using h enc
  · simp

/-- What a parser still takes; nothing once it is done. -/
def Todo (p : Parser) (us : List MaybeToken) (fs : List EventData) : Prop :=
  if p.done then us = [] ∧ fs = [] else Left p us fs

theorem todo_of {p : Parser} {us : List MaybeToken} {fs : List EventData} (h : p.done = false) :
    Todo p us fs ↔ Left p us fs := by simp [Todo, h]

/-- What a transition or a call from `p` did is within the grammar. -/
def Keeps (drive : Drive σ) (p0 : PeekReader σ) (p : Parser) (ev : Option Event) (s' : PS σ) :
    Prop :=
  Bang s'.parser ∧ ∃ ts, Pops drive p0 ts s'.tokens ∧
    ∀ us fs, Ahd s' us → Todo s'.parser us fs →
      Todo p (bare ts ++ us) (ev.toList.map (·.data) ++ fs)

theorem streamEnd_so (hf : First s) {ss : List State} (hst : s.parser.state = ⟨.StreamEnd, ss⟩)
    (hb : Bang s.parser) (hd : s.parser.done = false) :
    wp True (streamEnd drive) s (Keeps drive s.tokens s.parser) := by
  have hss : ss = [] := by
    have := hf.good
    rw [hst] at this
    cases ss with
    | nil => rfl
    | cons q qs => simp [Good, inDoc] at this
  subst hss
  unfold streamEnd
  rw [wp_bind, wp_get]
  simp only [hd, Bool.false_eq_true, if_false]
  rw [wp_bind]
  unfold consumeStreamEnd
  rw [wp_bind]
  refine tr_pop (Pops.nil _) fun e s1 h1 h2 _ => ?_
  split
  · next hw =>
    simp only [wp_pure, wp_bind, wp_modify]
    refine ⟨by simpa [Bang, h1] using hb, _, h2, ?_⟩
    intro us fs _ hl
    simp only [Todo, if_true] at hl
    obtain ⟨rfl, rfl⟩ := hl
    rw [todo_of hd]
    simp only [Left, hst]
    exact ⟨_, _, [], [], ⟨rfl, rfl⟩, ⟨rfl, rfl⟩, by simp [hw], by simp⟩
  · simp

theorem keeps_of_fits {p0 : PeekReader σ} {p : Parser} {ev : Option Event} {s' : PS σ}
    (hd : p.done = false) (h : Fits drive p0 p ev s') : Keeps drive p0 p ev s' := by
  obtain ⟨h1, h2, ts, h3, h4⟩ := h
  refine ⟨h2, ts, h3, ?_⟩
  intro us fs ha hl
  rw [todo_of hd]
  rw [todo_of (h1.trans hd)] at hl
  exact h4 _ _ ha hl

theorem stateTransition_so {fuel : Nat} (hf : First s) (hb : Bang s.parser)
    (hd : s.parser.done = false) :
    wp True (stateTransition drive fuel) s (Keeps drive s.tokens s.parser) := by
  unfold stateTransition
  rw [wp_bind, wp_get]
  have hn : ∀ {block : Bool}, s.parser.state.top = (if block then .BlockNode else .FlowNode) →
      wp True (node drive block .Root) s (Keeps drive s.tokens s.parser) := by
    intro block ht
    obtain ⟨q, qs, hq, -, -⟩ := hf.good.ne (by rw [ht]; cases block <;> rfl)
    refine wp_mono (node_fits (acc := []) (.nil _) rfl hb (by rw [hq]; simp) ?_)
      fun _ _ h => keeps_of_fits hd h
    rintro us fs ⟨u, v, us', fs', hn, hr, rfl, rfl⟩
    refine ⟨u, v, us', fs', ?_, hr, rfl, rfl⟩
    rw [ht]
    cases block <;> exact hn
  cases hm : s.parser.state with
  | mk t ss =>
    cases t with
    | StreamEnd => exact streamEnd_so hf hm hb hd
    | BlockNode => exact hn (block := true) (by rw [hm]; rfl)
    | FlowNode => exact hn (block := false) (by rw [hm]; rfl)
    | StreamStart => exact wp_mono (streamStart_so hm hb) fun _ _ h => keeps_of_fits hd h
    | DocumentStart i f => exact wp_mono (documentStart_so hf hm hb) fun _ _ h => keeps_of_fits hd h
    | DocumentContent =>
      exact wp_mono (explicitDocumentContent_so hf hb hm) fun _ _ h => keeps_of_fits hd h
    | DocumentEnd => exact wp_mono (documentEnd_so hm hb) fun _ _ h => keeps_of_fits hd h
    | BlockSequenceEntry b =>
      exact wp_mono (blockSequenceEntry_so hf hb hm) fun _ _ h => keeps_of_fits hd h
    | BlockMappingKey b =>
      exact wp_mono (blockMappingKey_so hf hb hm) fun _ _ h => keeps_of_fits hd h
    | BlockMappingValue =>
      exact wp_mono (blockMappingValue_so hb hm) fun _ _ h => keeps_of_fits hd h
    | FlowSequenceEntry b =>
      exact wp_mono (flowSequenceEntry_so hf hb hm) fun _ _ h => keeps_of_fits hd h
    | FlowSequenceMappingKey =>
      exact wp_mono (flowSequenceEntryMappingKey_so hb hm) fun _ _ h => keeps_of_fits hd h
    | FlowSequenceMappingValue =>
      exact wp_mono (flowSequenceEntryMappingValue_so hb hm) fun _ _ h => keeps_of_fits hd h
    | FlowSequenceMappingEnd =>
      exact wp_mono (flowSequenceEntryMappingEnd_so hb hm) fun _ _ h => keeps_of_fits hd h
    | FlowMappingKey b =>
      exact wp_mono (flowMappingKey_so hf hb hm) fun _ _ h => keeps_of_fits hd h
    | FlowMappingValue b =>
      exact wp_mono (flowMappingValue_so hb hm) fun _ _ h => keeps_of_fits hd h

/-- Both postconditions hold. -/
theorem wp_both {α : Type} {m : PM σ α} {s : PS σ} {Q R : α → PS σ → Prop}
    (h : wp True m s Q) (h' : wp True m s R) : wp True m s fun a s' => Q a s' ∧ R a s' := by
  unfold wp at *
  split at h <;> simp_all

/-- The first of what comes next is what is peeked. -/
theorem ahd_of {q : PeekReader σ} {ts : List TokenEntry} (h : Pops drive s.tokens ts q) :
    Ahd s (bare ts) := by
  intro e he
  obtain ⟨l, hl⟩ := h.head he
  cases ts with
  | nil => exact .inl rfl
  | cons t ts => simp only [List.cons_append, List.cons.injEq] at hl; exact .inr ⟨bare ts, by simp [hl.1]⟩

theorem nextEventLoop_so {fuel n : Nat} (hf : First s) (hb : Bang s.parser) :
    wp True (nextEventLoop drive fuel n) s fun ev s' => First s' ∧
      (ev = none → s'.parser.done = true) ∧ Keeps drive s.tokens s.parser ev s' := by
  induction n generalizing s with
  | zero => simp [nextEventLoop]
  | succ n ih =>
    unfold nextEventLoop
    rw [wp_bind, wp_get]
    split
    · next hd => exact ⟨hf, fun _ => hd, hb, [], .nil _, fun us fs _ h => h⟩
    · next hd =>
      have hd : s.parser.done = false := by simpa using hd
      rw [wp_bind]
      refine wp_mono (wp_both (stateTransition_tr hf hd) (stateTransition_so hf hb hd)) ?_
      rintro ev s1 ⟨⟨h1, -⟩, h2, ts, h3, h4⟩
      cases ev with
      | some e =>
        rw [wp_pure]
        exact ⟨h1, by simp, h2, ts, h3, h4⟩
      | none =>
        refine wp_mono (ih h1 h2) ?_
        rintro ev s2 ⟨g1, g2, g3, us, g4, g5⟩
        refine ⟨g1, g2, g3, ts ++ us, h3.append g4, ?_⟩
        intro vs fs ha hl
        have := h4 (bare us ++ vs) _ ?_ (g5 _ _ ha hl)
        · simpa using this
        · intro e he
          obtain ⟨l, hl⟩ := g4.head he
          cases us with
          | nil =>
            simp only [List.nil_append] at hl
            have hp : s2.tokens.peeked = some e := by
              cases hq : s2.tokens.peeked <;> simp_all
            simpa using ha e hp
          | cons u us =>
            simp only [List.cons_append, List.cons.injEq] at hl
            exact .inr ⟨bare us ++ vs, by simp [hl.1]⟩

theorem nextEvent_so {fuel : Nat} {s' : PS σ} {e : Option Event} (hf : First s) (hb : Bang s.parser)
    (h : nextEvent drive fuel s = (.ok e, s')) :
    First s' ∧ (e = none → s'.parser.done = true) ∧ Keeps drive s.tokens s.parser e s' :=
  wp_ok (Q := fun ev s' => First s' ∧ (ev = none → s'.parser.done = true) ∧
    Keeps drive s.tokens s.parser ev s') (nextEventLoop_so hf hb) h

theorem yields_so {es : List Event} {s s' : PS σ} (h : Yields drive s es s') (hf : First s)
    (hb : Bang s.parser) (hd : s'.parser.done = true) :
    ∃ ts, Pops drive s.tokens ts s'.tokens ∧ Todo s.parser (bare ts) (es.map (·.data)) := by
  induction h with
  | nil s => exact ⟨[], .nil _, by simp [Todo, hd]⟩
  | cons fuel h _ ih =>
    obtain ⟨h1, -, h2, ts, h3, h4⟩ := nextEvent_so hf hb h
    obtain ⟨us, g1, g2⟩ := ih h1 h2 hd
    refine ⟨ts ++ us, h3.append g1, ?_⟩
    have := h4 _ _ (ahd_of g1) g2
    simpa using this

end Yary.Sound
