import Verif.Proof.ParseFaults

/-! What the parser's errors say about the tokens: the states, and whole calls. -/

namespace Yary.PFault

open Yary Spec PM Parser

variable {σ : Type} {drive : Drive σ} {p0 : PeekReader σ} {es : List Event} {acc : List TokenEntry} {s : PS σ}

/-- A state inside a collection: the collections around it, and the state to return to. -/
structure InColl (acc : List TokenEntry) (es : List Event) (s : PS σ) (q : State) (qs : List State) : Prop where
  stack : s.parser.state.stack = q :: qs
  resumes : ∀ q ∈ s.parser.state.stack, resumes q = true
  opened : openAfter acc = frame s.parser.state.top ++ s.parser.state.stack.flatMap frame
  dirs : activeDirectives es = some s.parser.directives

theorem Inv.coll (h : Inv drive p0 acc es s) (hf : First s) (hi : inDoc s.parser.state.top = true) :
    ∃ q qs, InColl acc es s q qs := by
  obtain ⟨q, qs, hq, -, -⟩ := hf.good.ne hi
  exact ⟨q, qs, hq, h.stack, h.opened, h.dirs hi⟩

/-- Taking the pending start token. -/
theorem popFirst_pf {b : Bool} {m : Marker} (h : Taken drive p0 acc s)
    (hm : m ∈ [.BlockSequenceStart, .BlockMappingStart, .FlowSequenceStart, .FlowMappingStart])
    (hb : b = true → NextIn s [m] ∧ openAfter acc = s.parser.state.stack.flatMap frame)
    (hb' : b = false → openAfter acc = m :: s.parser.state.stack.flatMap frame) :
    wpe (Blamed drive p0 es) (popFirst drive b) s fun _ s' => s'.parser = s.parser ∧
      ∃ acc', Taken drive p0 acc' s' ∧ openAfter acc' = m :: s.parser.state.stack.flatMap frame ∧
        (b = true → lastMarker acc' = some m) ∧ (b = false → acc' = acc ∧ s' = s) := by
  unfold popFirst
  split
  · next hbt =>
    obtain ⟨⟨e, he, hem⟩, ho⟩ := hb hbt
    simp only [List.mem_singleton] at hem
    rw [wpe_bind]
    refine pf_popP h he (by rintro h0; rw [hem] at h0; subst h0; simp at hm) fun s1 h1 h2 => ?_
    exact ⟨h1, _, h2, by rw [openAfter_snoc, openWith_start hem hm, ho], fun _ => by simp [hem], by simp [hbt]⟩
  · next hbt =>
    have hbt : b = false := by simpa using hbt
    exact ⟨rfl, acc, h, hb' hbt, by simp [hbt], fun _ => ⟨rfl, rfl⟩⟩

theorem peekPopFirst_pf {b : Bool} {m : Marker} (h : Taken drive p0 acc s)
    (hm : m ∈ [.BlockSequenceStart, .BlockMappingStart, .FlowSequenceStart, .FlowMappingStart])
    (hb : b = true → NextIn s [m] ∧ openAfter acc = s.parser.state.stack.flatMap frame)
    (hb' : b = false → openAfter acc = m :: s.parser.state.stack.flatMap frame) :
    wpe (Blamed drive p0 es) (peekPopFirst drive b) s fun _ s' => s'.parser = s.parser ∧
      ∃ acc', Taken drive p0 acc' s' ∧ openAfter acc' = m :: s.parser.state.stack.flatMap frame ∧
        (b = true → lastMarker acc' = some m) ∧ (b = false → acc' = acc ∧ s' = s) := by
  unfold peekPopFirst
  split
  · next hbt =>
    obtain ⟨⟨e, he, hem⟩, ho⟩ := hb hbt
    simp only [List.mem_singleton] at hem
    rw [wpe_bind]
    refine pf_peek h fun e1 s1 k1 k2 k3 k4 => ?_
    obtain rfl := k4 _ he
    rw [wpe_bind]
    refine pf_popP k2 k3 (by rintro h0; rw [hem] at h0; subst h0; simp at hm) fun s2 h1 h2 => ?_
    exact ⟨h1.trans k1, _, h2, by rw [openAfter_snoc, openWith_start hem hm, ho], fun _ => by simp [hem], by simp [hbt]⟩
  · next hbt =>
    have hbt : b = false := by simpa using hbt
    exact ⟨rfl, acc, h, hb' hbt, by simp [hbt], fun _ => ⟨rfl, rfl⟩⟩

theorem inside_of {m : Marker} {l : List Marker} (h : openAfter acc = m :: l) : inside acc = some m := by
  simp [inside, h]

theorem pop_stack {p p' : Parser} {q : State} {qs : List State} (h : p'.state.stack = q :: qs) (hp : p = p') :
    ({ p with state := p.state.pop } : Parser) = { p' with state := ⟨q, qs⟩ } := by
  subst hp
  unfold StateMachine.pop
  rw [h]

theorem blockSequenceEntry_pf (hf : First s) (h : Inv drive p0 acc es s) {b : Bool} {ss : List State}
    (hst : s.parser.state = ⟨.BlockSequenceEntry b, ss⟩) :
    wpe (Blamed drive p0 es) (blockSequenceEntry drive b) s (After' drive p0 es) := by
  have hi : inDoc s.parser.state.top = true := by rw [hst]; rfl
  obtain ⟨q, qs, hc⟩ := h.coll hf hi
  have hat := h.at_
  have ho := hc.opened
  rw [hst] at hat ho
  unfold blockSequenceEntry
  rw [wpe_bind]
  refine wpe_mono (popFirst_pf (m := .BlockSequenceStart) h.pops (by decide) ?_ ?_) ?_
  · rintro rfl; rw [hst]; exact ⟨hat, ho⟩
  · rintro rfl; rw [hst]; exact ho
  rintro _ s1 ⟨h1, acc1, h2, ho1, hb1, hb2⟩
  rw [wpe_bind]
  refine pf_peek h2 fun e s2 g1 g2 g3 g4 => ?_
  split
  · next hm =>
    rw [wpe_bind]
    refine pf_popP g2 g3 (by simp [*]) fun s3 k1 k2 => ?_
    rw [wpe_bind]
    have ho2 : openAfter (acc1 ++ [e]) = .BlockSequenceStart :: s.parser.state.stack.flatMap frame := by
      rw [openAfter_snoc, openWith_other hm, ho1]
    refine pf_peek k2 fun e' s4 l1 l2 l3 _ => ?_
    split
    · next hm' =>
      simp only [Bool.or_eq_true, decide_eq_true_eq] at hm'
      exact simple_pf l2 (by simp [*]) hc.resumes (by simpa [frame] using ho2) (.inr ⟨e', l3, by simpa using hm'⟩)
        (by simp [emptyScalar]) fun _ => hc.dirs
    · next hm' =>
      simp only [Bool.or_eq_true, decide_eq_true_eq] at hm'
      exact node_push_pf l2 l3 (by simp [*]) hc.resumes (by simpa [frame] using ho2) rfl (.inl rfl)
        (.entry (inside_of ho2) (by simp [hm]) (by simpa using hm')) hc.dirs
  · next hm =>
    rw [wpe_bind]
    refine pf_popP g2 g3 (by simp [*]) fun s3 k1 k2 => ?_
    simp only [wpe_bind, wpe_popState, wpe_pure]
    exact end_pf (s := s) k2 (pop_stack hc.stack (by simp [*])) hc.stack hc.resumes ho1 (by simp [hm]) (by simp) hc.dirs
  · next hm1 hm2 =>
    have hm : e.marker ∉ [.BlockEntry, .BlockEnd] := by
      simp only [List.mem_cons, List.not_mem_nil, or_false, not_or]; exact ⟨hm1, hm2⟩
    refine blame g2 g3 (.entry (inside_of ho1) ?_ hm)
    cases b with
    | true => exact .inl (hb1 rfl)
    | false =>
      obtain ⟨rfl, rfl⟩ := hb2 rfl
      rcases hat with hat | ⟨e0, he0, hin⟩
      · exact .inr hat
      · obtain rfl := g4 _ he0
        exact absurd hin hm

theorem blockMappingKey_pf (hf : First s) (h : Inv drive p0 acc es s) {b : Bool} {ss : List State}
    (hst : s.parser.state = ⟨.BlockMappingKey b, ss⟩) :
    wpe (Blamed drive p0 es) (blockMappingKey drive b) s (After' drive p0 es) := by
  have hi : inDoc s.parser.state.top = true := by rw [hst]; rfl
  obtain ⟨q, qs, hc⟩ := h.coll hf hi
  have hat := h.at_
  have ho := hc.opened
  rw [hst] at hat ho
  unfold blockMappingKey
  rw [wpe_bind]
  refine wpe_mono (peekPopFirst_pf (m := .BlockMappingStart) h.pops (by decide) ?_ ?_) ?_
  · rintro rfl; rw [hst]; exact ⟨hat, ho⟩
  · rintro rfl; rw [hst]; exact ho
  rintro _ s1 ⟨h1, acc1, h2, ho1, hb1, hb2⟩
  rw [wpe_bind]
  refine pf_peek h2 fun e s2 g1 g2 g3 g4 => ?_
  split
  · next hm =>
    rw [wpe_bind]
    refine pf_popP g2 g3 (by simp [*]) fun s3 k1 k2 => ?_
    rw [wpe_bind]
    have ho2 : openAfter (acc1 ++ [e]) = .BlockMappingStart :: s.parser.state.stack.flatMap frame := by
      rw [openAfter_snoc, openWith_other hm, ho1]
    refine pf_peek k2 fun e' s4 l1 l2 l3 _ => ?_
    split
    · next hm' =>
      simp only [Bool.not_eq_true', Bool.or_eq_false_iff, decide_eq_false_iff_not] at hm'
      exact node_push_pf l2 l3 (by simp [*]) hc.resumes (by simpa [frame] using ho2) rfl (.inl rfl)
        (.block (inside_of ho2) (.inl (by simp [hm])) (by simpa [and_assoc] using hm')) hc.dirs
    · next hm' =>
      simp only [Bool.not_eq_true', Bool.not_eq_false, Bool.or_eq_true, decide_eq_true_eq] at hm'
      exact simple_pf l2 (by simp [*]) hc.resumes (by simpa [frame] using ho2) (.inr ⟨e', l3, by simpa [or_assoc] using hm'⟩)
        (by simp [emptyScalar]) fun _ => hc.dirs
  · next hm =>
    rw [wpe_bind]
    refine pf_popP g2 g3 (by simp [*]) fun s3 k1 k2 => ?_
    simp only [wpe_bind, wpe_popState, wpe_pure]
    exact end_pf (s := s) k2 (pop_stack hc.stack (by simp [*])) hc.stack hc.resumes ho1 (by simp [hm]) (by simp) hc.dirs
  · next hm1 hm2 =>
    have hm : e.marker ∉ [.Key, .BlockEnd] := by
      simp only [List.mem_cons, List.not_mem_nil, or_false, not_or]; exact ⟨hm1, hm2⟩
    refine blame g2 g3 (.key (inside_of ho1) ?_ hm)
    cases b with
    | true => exact .inl (hb1 rfl)
    | false =>
      obtain ⟨rfl, rfl⟩ := hb2 rfl
      rcases hat with hat | ⟨e0, he0, hin⟩ | ⟨hl, e0, he0, hin⟩
      · exact .inr (.inl hat)
      · obtain rfl := g4 _ he0
        exact absurd hin hm
      · obtain rfl := g4 _ he0
        exact .inr (.inr ⟨hl, by simpa using hin⟩)

theorem blockMappingValue_pf (hf : First s) (h : Inv drive p0 acc es s) {ss : List State}
    (hst : s.parser.state = ⟨.BlockMappingValue, ss⟩) :
    wpe (Blamed drive p0 es) (blockMappingValue drive) s (After' drive p0 es) := by
  have hi : inDoc s.parser.state.top = true := by rw [hst]; rfl
  obtain ⟨q, qs, hc⟩ := h.coll hf hi
  have hat := h.at_
  have ho1 : openAfter acc = .BlockMappingStart :: s.parser.state.stack.flatMap frame := by
    rw [hc.opened, hst]; rfl
  rw [hst] at hat
  unfold blockMappingValue
  rw [wpe_bind]
  refine pf_peek h.pops fun e s2 g1 g2 g3 g4 => ?_
  split
  · next hm =>
    rw [wpe_bind]
    refine pf_popP g2 g3 (by simp [*]) fun s3 k1 k2 => ?_
    rw [wpe_bind]
    have ho2 : openAfter (acc ++ [e]) = .BlockMappingStart :: s.parser.state.stack.flatMap frame := by
      rw [openAfter_snoc, openWith_other hm, ho1]
    refine pf_peek k2 fun e' s4 l1 l2 l3 _ => ?_
    split
    · next hm' =>
      simp only [Bool.not_eq_true', Bool.or_eq_false_iff, decide_eq_false_iff_not] at hm'
      exact node_push_pf l2 l3 (by simp [*]) hc.resumes (by simpa [frame] using ho2) rfl (.inl rfl)
        (.block (inside_of ho2) (.inr (by simp [hm])) (by simpa [and_assoc] using hm')) hc.dirs
    · next hm' =>
      simp only [Bool.not_eq_true', Bool.not_eq_false, Bool.or_eq_true, decide_eq_true_eq] at hm'
      refine simple_pf l2 (by simp [*]) hc.resumes (by simpa [frame] using ho2) ?_ (by simp [emptyScalar]) fun _ => hc.dirs
      rcases hm' with (hm' | hm') | hm'
      · exact .inr (.inl ⟨e', l3, by simp [hm']⟩)
      · exact .inr (.inr ⟨by simp [hm], e', l3, by simp [hm']⟩)
      · exact .inr (.inl ⟨e', l3, by simp [hm']⟩)
  · next hm =>
    refine simple_pf g2 (by simp [*]) hc.resumes (by simpa [frame] using ho1) ?_ (by simp [emptyScalar]) fun _ => hc.dirs
    rcases hat with hat | ⟨e0, he0, hin⟩
    · exact .inl hat
    · obtain rfl := g4 _ he0
      refine .inr (.inl ⟨e, g3, ?_⟩)
      simp only [List.mem_cons, List.not_mem_nil, or_false] at hin ⊢
      rcases hin with hin | hin | hin
      · exact .inl hin
      · exact (hm hin).elim
      · exact .inr hin

theorem fetchSequenceEnd_pf {s1 : PS σ} {e : TokenEntry} {q : State} {qs : List State} {m : Marker} (h : Taken drive p0 acc s1)
    (hs : s1.parser = s.parser) (hp : s1.tokens.peeked = some e) (hm : e.marker = .FlowSequenceEnd)
    (hst : s.parser.state.stack = q :: qs) (hr : ∀ q ∈ s.parser.state.stack, resumes q = true)
    (ho : openAfter acc = m :: s.parser.state.stack.flatMap frame) (ha : activeDirectives es = some s.parser.directives) :
    wpe (Blamed drive p0 es) (do let ev ← fetchSequenceEnd drive e.readAt e.readAt; pure (some ev)) s1 (After' drive p0 es) := by
  unfold fetchSequenceEnd
  simp only [wpe_bind, wpe_popState]
  refine pf_popP (acc := acc) (e := e) h hp (by simp [*]) fun s2 g1 g2 => ?_
  simp only [wpe_pure]
  exact end_pf (s := s) g2 (g1.trans (pop_stack hst hs)) hst hr ho (by simp [hm]) (by simp) ha

theorem fetchMappingEnd_pf {s1 : PS σ} {e : TokenEntry} {q : State} {qs : List State} {m : Marker} (h : Taken drive p0 acc s1)
    (hs : s1.parser = s.parser) (hp : s1.tokens.peeked = some e) (hm : e.marker = .FlowMappingEnd)
    (hst : s.parser.state.stack = q :: qs) (hr : ∀ q ∈ s.parser.state.stack, resumes q = true)
    (ho : openAfter acc = m :: s.parser.state.stack.flatMap frame) (ha : activeDirectives es = some s.parser.directives) :
    wpe (Blamed drive p0 es) (do let ev ← fetchMappingEnd drive e.readAt e.readAt; pure (some ev)) s1 (After' drive p0 es) := by
  unfold fetchMappingEnd
  simp only [wpe_bind, wpe_popState]
  refine pf_popP (acc := acc) (e := e) h hp (by simp [*]) fun s2 g1 g2 => ?_
  simp only [wpe_pure]
  exact end_pf (s := s) g2 (g1.trans (pop_stack hst hs)) hst hr ho (by simp [hm]) (by simp) ha

theorem popFlowEntry_pf {b : Bool} {e : TokenEntry} {er : ParseError} {l : List Marker} {m : Marker} (h : Taken drive p0 acc s)
    (hp : s.tokens.peeked = some e) (ho : openAfter acc = l) (hl : b = true → lastMarker acc = some m)
    (he : b = false → e.marker ≠ .FlowEntry → Blamed drive p0 es er) :
    wpe (Blamed drive p0 es) (popFlowEntry drive b e er) s fun _ s' => s'.parser = s.parser ∧
      ∃ acc', Taken drive p0 acc' s' ∧ openAfter acc' = l ∧ (lastMarker acc' = some m ∨ lastMarker acc' = some .FlowEntry) := by
  unfold popFlowEntry
  split
  · next hb => exact ⟨rfl, acc, h, ho, .inl (hl hb)⟩
  · next hb =>
    split
    · next hm =>
      rw [wpe_bind]
      refine pf_popP h hp (by simp [*]) fun s1 h1 h2 => ?_
      exact ⟨h1, _, h2, by rw [openAfter_snoc, openWith_other hm, ho], .inr (by simp [hm])⟩
    · next hm => exact he (by simpa using hb) hm

theorem flowSequenceEntry_pf (hf : First s) (h : Inv drive p0 acc es s) {b : Bool} {ss : List State}
    (hst : s.parser.state = ⟨.FlowSequenceEntry b, ss⟩) :
    wpe (Blamed drive p0 es) (flowSequenceEntry drive b) s (After' drive p0 es) := by
  have hi : inDoc s.parser.state.top = true := by rw [hst]; rfl
  obtain ⟨q, qs, hc⟩ := h.coll hf hi
  have hat := h.at_
  have ho := hc.opened
  rw [hst] at hat ho
  unfold flowSequenceEntry
  rw [wpe_bind]
  refine wpe_mono (popFirst_pf (m := .FlowSequenceStart) h.pops (by decide) ?_ ?_) ?_
  · rintro rfl; rw [hst]; exact ⟨hat, ho⟩
  · rintro rfl; rw [hst]; exact ho
  rintro _ s1 ⟨h1, acc1, h2, ho1, hb1, hb2⟩
  rw [wpe_bind]
  refine pf_peek h2 fun e s2 g1 g2 g3 g4 => ?_
  split
  · next hne =>
    rw [wpe_bind]
    refine wpe_mono (popFlowEntry_pf g2 g3 ho1 hb1 ?_) ?_
    · intro hb hm
      have hm' : e.marker ∉ [.FlowEntry, .FlowSequenceEnd] := by
        simp only [List.mem_cons, List.not_mem_nil, or_false, not_or]; exact ⟨hm, hne⟩
      refine blame g2 g3 (.sequence (inside_of ho1) ?_ hm')
      subst hb
      obtain ⟨rfl, rfl⟩ := hb2 rfl
      rcases hat with hat | ⟨e0, he0, hin⟩
      · exact hat
      · obtain rfl := g4 _ he0
        exact absurd hin hm'
    rintro _ s3 ⟨k1, acc3, k2, ho3, hl3⟩
    rw [wpe_bind]
    refine pf_peek k2 fun e' s4 l1 l2 l3 _ => ?_
    split
    · next hm =>
      rw [wpe_bind]
      refine pf_popP l2 l3 (by simp [*]) fun s5 m1 m2 => ?_
      exact simple_pf m2 (by simp [*]) hc.resumes (by rw [openAfter_snoc, openWith_other hm, ho3]; rfl)
        (by simp [At, hm]) (by simp) fun _ => hc.dirs
    · next hm1 =>
      split
      · next hm2 =>
        exact node_push_pf l2 l3 (by simp [*]) hc.resumes (by simpa [frame] using ho3) rfl (.inr (.inl rfl))
          (.flowEntry (inside_of ho3) hl3 (by simpa using ⟨hm1, hm2⟩)) hc.dirs
      · next hm =>
        exact fetchSequenceEnd_pf (s := s) l2 (by simp [*]) l3 (by simpa using hm) hc.stack hc.resumes ho3 hc.dirs
  · next hm =>
    exact fetchSequenceEnd_pf (s := s) g2 (by simp [*]) g3 (by simpa using hm) hc.stack hc.resumes ho1 hc.dirs

theorem flowSequenceEntryMappingKey_pf (hf : First s) (h : Inv drive p0 acc es s) {ss : List State}
    (hst : s.parser.state = ⟨.FlowSequenceMappingKey, ss⟩) :
    wpe (Blamed drive p0 es) (flowSequenceEntryMappingKey drive) s (After' drive p0 es) := by
  have hi : inDoc s.parser.state.top = true := by rw [hst]; rfl
  obtain ⟨q, qs, hc⟩ := h.coll hf hi
  have hat := h.at_
  have ho1 : openAfter acc = .FlowSequenceStart :: s.parser.state.stack.flatMap frame := by
    rw [hc.opened, hst]; rfl
  rw [hst] at hat
  unfold flowSequenceEntryMappingKey
  rw [wpe_bind]
  refine pf_peek h.pops fun e s2 g1 g2 g3 g4 => ?_
  split
  · next hm' =>
    simp only [Bool.not_eq_true', Bool.or_eq_false_iff, decide_eq_false_iff_not] at hm'
    exact node_push_pf g2 g3 (by simp [*]) hc.resumes (by simpa [frame] using ho1) rfl (.inr (.inl rfl))
      (.pairKey (inside_of ho1) hat (by simpa [and_assoc] using hm')) hc.dirs
  · next hm' =>
    simp only [Bool.not_eq_true', Bool.not_eq_false, Bool.or_eq_true, decide_eq_true_eq] at hm'
    exact simple_pf g2 (by simp [*]) hc.resumes (by simpa [frame] using ho1) (.inr ⟨e, g3, by simpa [or_assoc] using hm'⟩)
      (by simp [emptyScalar]) fun _ => hc.dirs

theorem flowSequenceEntryMappingValue_pf (hf : First s) (h : Inv drive p0 acc es s) {ss : List State}
    (hst : s.parser.state = ⟨.FlowSequenceMappingValue, ss⟩) :
    wpe (Blamed drive p0 es) (flowSequenceEntryMappingValue drive) s (After' drive p0 es) := by
  have hi : inDoc s.parser.state.top = true := by rw [hst]; rfl
  obtain ⟨q, qs, hc⟩ := h.coll hf hi
  have hat := h.at_
  have ho1 : openAfter acc = .FlowSequenceStart :: s.parser.state.stack.flatMap frame := by
    rw [hc.opened, hst]; rfl
  rw [hst] at hat
  unfold flowSequenceEntryMappingValue flowPairHasValue
  rw [wpe_bind]
  refine pf_peek h.pops fun e s2 g1 g2 g3 g4 => ?_
  rw [wpe_bind]
  split
  · next hm =>
    rw [wpe_bind]
    refine pf_popP g2 g3 (by simp [*]) fun s3 k1 k2 => ?_
    rw [wpe_bind]
    have ho2 : openAfter (acc ++ [e]) = .FlowSequenceStart :: s.parser.state.stack.flatMap frame := by
      rw [openAfter_snoc, openWith_other hm, ho1]
    refine pf_peek k2 fun e' s4 l1 l2 l3 _ => ?_
    rw [wpe_pure]
    split
    · next hm' =>
      simp only [Bool.not_eq_true', Bool.or_eq_false_iff, decide_eq_false_iff_not] at hm'
      exact node_push_pf l2 l3 (by simp [*]) hc.resumes (by simpa [frame] using ho2) rfl (.inr (.inl rfl))
        (.pairValue (inside_of ho2) (by simp [hm]) (by simpa using hm')) hc.dirs
    · next hm' =>
      simp only [Bool.not_eq_true', Bool.not_eq_false, Bool.or_eq_true, decide_eq_true_eq] at hm'
      exact simple_pf l2 (by simp [*]) hc.resumes (by simpa [frame] using ho2) (.inr ⟨e', l3, by simpa using hm'⟩)
        (by simp [emptyScalar]) fun _ => hc.dirs
  · next hm =>
    rw [wpe_pure]
    refine simple_pf g2 (by simp [*]) hc.resumes (by simpa [frame] using ho1) ?_ (by simp [emptyScalar]) fun _ => hc.dirs
    rcases hat with hat | ⟨e0, he0, hin⟩
    · exact .inl hat
    · obtain rfl := g4 _ he0
      refine .inr ⟨e, g3, ?_⟩
      simp only [List.mem_cons, List.not_mem_nil, or_false] at hin ⊢
      exact hin.resolve_left hm

theorem flowSequenceEntryMappingEnd_pf (hf : First s) (h : Inv drive p0 acc es s) {ss : List State}
    (hst : s.parser.state = ⟨.FlowSequenceMappingEnd, ss⟩) :
    wpe (Blamed drive p0 es) (flowSequenceEntryMappingEnd drive) s (After' drive p0 es) := by
  have hi : inDoc s.parser.state.top = true := by rw [hst]; rfl
  obtain ⟨q, qs, hc⟩ := h.coll hf hi
  have hat := h.at_
  have ho1 : openAfter acc = .FlowSequenceStart :: s.parser.state.stack.flatMap frame := by
    rw [hc.opened, hst]; rfl
  rw [hst] at hat
  unfold flowSequenceEntryMappingEnd
  rw [wpe_bind]
  refine pf_peek h.pops fun e s2 g1 g2 g3 g4 => ?_
  refine simple_pf g2 (by simp [*]) hc.resumes (by simpa [frame] using ho1) ?_ (by simp) fun _ => hc.dirs
  rcases hat with hat | ⟨e0, he0, hin⟩
  · exact .inl hat
  · obtain rfl := g4 _ he0
    exact .inr ⟨e, g3, hin⟩

theorem flowMappingKey_pf (hf : First s) (h : Inv drive p0 acc es s) {b : Bool} {ss : List State}
    (hst : s.parser.state = ⟨.FlowMappingKey b, ss⟩) :
    wpe (Blamed drive p0 es) (flowMappingKey drive b) s (After' drive p0 es) := by
  have hi : inDoc s.parser.state.top = true := by rw [hst]; rfl
  obtain ⟨q, qs, hc⟩ := h.coll hf hi
  have hat := h.at_
  have ho := hc.opened
  rw [hst] at hat ho
  unfold flowMappingKey
  rw [wpe_bind]
  refine wpe_mono (popFirst_pf (m := .FlowMappingStart) h.pops (by decide) ?_ ?_) ?_
  · rintro rfl; rw [hst]; exact ⟨hat, ho⟩
  · rintro rfl; rw [hst]; exact ho
  rintro _ s1 ⟨h1, acc1, h2, ho1, hb1, hb2⟩
  rw [wpe_bind]
  refine pf_peek h2 fun e s2 g1 g2 g3 g4 => ?_
  split
  · next hne =>
    rw [wpe_bind]
    refine wpe_mono (popFlowEntry_pf g2 g3 ho1 hb1 ?_) ?_
    · intro hb hm
      have hm' : e.marker ∉ [.FlowEntry, .FlowMappingEnd] := by
        simp only [List.mem_cons, List.not_mem_nil, or_false, not_or]; exact ⟨hm, hne⟩
      refine blame g2 g3 (.mapping (inside_of ho1) ?_ hm')
      subst hb
      obtain ⟨rfl, rfl⟩ := hb2 rfl
      rcases hat with hat | ⟨e0, he0, hin⟩
      · exact hat
      · obtain rfl := g4 _ he0
        exact absurd hin hm'
    rintro _ s3 ⟨k1, acc3, k2, ho3, hl3⟩
    rw [wpe_bind]
    refine pf_peek k2 fun e' s4 l1 l2 l3 _ => ?_
    split
    · next hm =>
      rw [wpe_bind]
      refine pf_popP l2 l3 (by simp [*]) fun s5 m1 m2 => ?_
      rw [wpe_bind]
      have ho5 : openAfter (acc3 ++ [e']) = .FlowMappingStart :: s.parser.state.stack.flatMap frame := by
        rw [openAfter_snoc, openWith_other hm, ho3]
      refine pf_peek m2 fun e'' s6 n1 n2 n3 _ => ?_
      split
      · next hm' =>
        simp only [Bool.not_eq_true', Bool.or_eq_false_iff, decide_eq_false_iff_not] at hm'
        exact node_push_pf n2 n3 (by simp [*]) hc.resumes (by simpa [frame] using ho5) rfl (.inr (.inr rfl))
          (.flowMarkedKey (inside_of ho5) (by simp [hm]) (by simpa [and_assoc] using hm')) hc.dirs
      · next hm' =>
        simp only [Bool.not_eq_true', Bool.not_eq_false, Bool.or_eq_true, decide_eq_true_eq] at hm'
        exact simple_pf n2 (by simp [*]) hc.resumes (by simpa [frame] using ho5) (.inr ⟨e'', n3, by simpa [or_assoc] using hm'⟩)
          (by simp [emptyScalar]) fun _ => hc.dirs
    · next hm1 =>
      split
      · next hm2 =>
        exact node_push_pf l2 l3 (by simp [*]) hc.resumes (by simpa [frame] using ho3) rfl (.inr (.inr rfl))
          (.flowKey (inside_of ho3) hl3 (by simpa using ⟨hm1, hm2⟩)) hc.dirs
      · next hm =>
        exact fetchMappingEnd_pf (s := s) l2 (by simp [*]) l3 (by simpa using hm) hc.stack hc.resumes ho3 hc.dirs
  · next hm =>
    exact fetchMappingEnd_pf (s := s) g2 (by simp [*]) g3 (by simpa using hm) hc.stack hc.resumes ho1 hc.dirs

theorem flowMappingValue_pf (hf : First s) (h : Inv drive p0 acc es s) {b : Bool} {ss : List State}
    (hst : s.parser.state = ⟨.FlowMappingValue b, ss⟩) :
    wpe (Blamed drive p0 es) (flowMappingValue drive b) s (After' drive p0 es) := by
  have hi : inDoc s.parser.state.top = true := by rw [hst]; rfl
  obtain ⟨q, qs, hc⟩ := h.coll hf hi
  have hat := h.at_
  have ho1 : openAfter acc = .FlowMappingStart :: s.parser.state.stack.flatMap frame := by
    rw [hc.opened, hst]; rfl
  rw [hst] at hat
  unfold flowMappingValue
  rw [wpe_bind]
  refine pf_peek h.pops fun e s2 g1 g2 g3 g4 => ?_
  split
  · next hb =>
    subst hb
    exact simple_pf g2 (by simp [*]) hc.resumes (by simpa [frame] using ho1) (.inl hat) (by simp [emptyScalar]) fun _ => hc.dirs
  · next hb =>
    have hb : b = false := by simpa using hb
    subst hb
    split
    · next hm =>
      rw [wpe_bind]
      refine pf_popP g2 g3 (by simp [*]) fun s3 k1 k2 => ?_
      rw [wpe_bind]
      have ho2 : openAfter (acc ++ [e]) = .FlowMappingStart :: s.parser.state.stack.flatMap frame := by
        rw [openAfter_snoc, openWith_other hm, ho1]
      refine pf_peek k2 fun e' s4 l1 l2 l3 _ => ?_
      split
      · next hm' =>
        simp only [Bool.not_eq_true', Bool.or_eq_false_iff, decide_eq_false_iff_not] at hm'
        exact node_push_pf l2 l3 (by simp [*]) hc.resumes (by simpa [frame] using ho2) rfl (.inr (.inr rfl))
          (.flowValue (inside_of ho2) (by simp [hm]) (by simpa using hm')) hc.dirs
      · next hm' =>
        simp only [Bool.not_eq_true', Bool.not_eq_false, Bool.or_eq_true, decide_eq_true_eq] at hm'
        exact simple_pf l2 (by simp [*]) hc.resumes (by simpa [frame] using ho2) (.inr ⟨e', l3, by simpa using hm'⟩)
          (by simp [emptyScalar]) fun _ => hc.dirs
    · next hm =>
      refine simple_pf g2 (by simp [*]) hc.resumes (by simpa [frame] using ho1) ?_ (by simp [emptyScalar]) fun _ => hc.dirs
      rcases hat with hat | ⟨e0, he0, hin⟩
      · exact .inl hat
      · obtain rfl := g4 _ he0
        refine .inr ⟨e, g3, ?_⟩
        simp only [List.mem_cons, List.not_mem_nil, or_false] at hin ⊢
        exact hin.resolve_left hm

/-! ## Documents -/

theorem openAfter_append (l₁ l₂ : List TokenEntry) : openAfter (l₁ ++ l₂) = l₂.foldl openWith (openAfter l₁) := by
  simp [openAfter]

/-- Tokens that are neither starts nor ends of collections open and close nothing. -/
theorem openAfter_flat {l : List TokenEntry} (h : ∀ t ∈ l, t.marker ∉ [.BlockSequenceStart, .BlockMappingStart, .FlowSequenceStart,
    .FlowMappingStart, .BlockEnd, .FlowSequenceEnd, .FlowMappingEnd]) : openAfter (acc ++ l) = openAfter acc := by
  rw [openAfter_append]
  induction l generalizing acc with
  | nil => rfl
  | cons t l ih =>
    rw [List.foldl_cons, openWith_other rfl (h t (by simp))]
    exact ih fun t ht => h t (by simp [ht])

theorem directive_flat {l : List TokenEntry} (h : ∀ t ∈ l, isDirective t = true) : openAfter (acc ++ l) = openAfter acc := by
  refine openAfter_flat fun t ht => ?_
  have := h t ht
  simp only [isDirective, Bool.or_eq_true, beq_iff_eq] at this
  rcases this with h | h <;> simp [h]

theorem directive_last {l : List TokenEntry} (h : ∀ t ∈ l, isDirective t = true) (hl : l ≠ []) :
    lastMarker (acc ++ l) = some .VersionDirective ∨ lastMarker (acc ++ l) = some .TagDirective := by
  rcases List.eq_nil_or_concat l with rfl | ⟨l', t, rfl⟩
  · exact absurd rfl hl
  · rw [List.concat_eq_append, ← List.append_assoc, lastMarker_snoc]
    have := h t (by simp)
    simpa [isDirective] using this

theorem get_isSome {m : TagMap} {k : Str} (h : (m.get k).isSome = true) : ∃ p, (k, p) ∈ m := by
  unfold TagMap.get at h
  rw [Option.isSome_map, List.find?_isSome] at h
  obtain ⟨⟨x, y⟩, hx, hy⟩ := h
  simp only [beq_iff_eq] at hy
  subst hy
  exact ⟨y, hx⟩

theorem scanDirectivesLoop_pf {dirs : List TokenEntry} {fuel stop : Nat} {seen : Bool} {d : Directives}
    (h : Taken drive p0 (acc ++ dirs) s) (hS : Seen dirs seen d) :
    wpe (Blamed drive p0 es) (scanDirectivesLoop drive fuel stop seen d) s fun _ s' => s'.parser = s.parser ∧
      ∃ more e, Taken drive p0 (acc ++ (dirs ++ more)) s' ∧ (∀ t ∈ dirs ++ more, isDirective t = true) ∧ s'.tokens.peeked = some e ∧
        e.marker ≠ .VersionDirective ∧ e.marker ≠ .TagDirective ∧
        (more = [] → ∀ e0, s.tokens.peeked = some e0 → e = e0) := by
  induction fuel generalizing s stop seen d dirs with
  | zero => simp [scanDirectivesLoop]
  | succ n ih =>
    unfold scanDirectivesLoop
    rw [wpe_bind]
    refine pf_peek h fun e s1 h1 h2 h3 h4 => ?_
    split
    · next hm =>
      obtain ⟨a, b, hw⟩ := marker_version hm
      split
      · next hseen =>
        have hseen : seen = false := by simpa using hseen
        subst hseen
        rw [wpe_bind]
        unfold consumeVersion
        rw [wpe_bind]
        refine pf_popP h2 h3 (by simp [*]) fun s2 g1 g2 => ?_
        rw [hw]
        simp only [wpe_pure]
        rw [List.append_assoc] at g2
        refine wpe_mono (ih g2 (hS.version hw)) ?_
        rintro _ s' ⟨k1, more, e', k2, k3, k4, k5, k6, -⟩
        exact ⟨by rw [k1, g1, h1], e :: more, e', by simpa using k2, by simpa using k3, k4, k5, k6, by simp⟩
      · next hseen =>
        have hseen : seen = true := by simpa using hseen
        exact blame h2 h3 (.version rfl hS.directives (by simp [hS.once hseen]) hm)
    · next hm =>
      obtain ⟨a, b, hw⟩ := marker_tagDirective hm
      rw [wpe_bind]
      unfold consumeTagDirective
      rw [wpe_bind]
      refine pf_popP h2 h3 (by simp [*]) fun s2 g1 g2 => ?_
      rw [hw]
      simp only [wpe_pure]
      split
      · next hg =>
        refine ⟨_, _, g2.1, .redefined ?_⟩
        obtain ⟨w, r⟩ := e
        simp only at hw
        subst hw
        refine .mk hS.directives ?_
        obtain ⟨p, hp⟩ := get_isSome hg
        exact List.mem_map.2 ⟨(a, p), List.mem_append.2 ((hS.tags _ _).1 hp), rfl⟩
      · next hn =>
        rw [List.append_assoc] at g2
        refine wpe_mono (ih g2 (hS.tag hw hn)) ?_
        rintro _ s' ⟨k1, more, e', k2, k3, k4, k5, k6, -⟩
        exact ⟨by rw [k1, g1, h1], e :: more, e', by simpa using k2, by simpa using k3, k4, k5, k6, by simp⟩
    · next hm1 hm2 => exact ⟨h1, [], e, by simpa using h2, by simpa using hS.directives, h3, hm1, hm2, fun _ => h4⟩

theorem scanDocumentDirectives_pf {fuel : Nat} {e : TokenEntry} (h : Taken drive p0 acc s) (hp : s.tokens.peeked = some e) :
    wpe (Blamed drive p0 es) (scanDocumentDirectives drive fuel) s fun _ s' => s'.parser = s.parser ∧
      ∃ dirs e', Taken drive p0 (acc ++ dirs) s' ∧ (∀ t ∈ dirs, isDirective t = true) ∧ s'.tokens.peeked = some e' ∧
        e'.marker ≠ .VersionDirective ∧ e'.marker ≠ .TagDirective ∧ (dirs = [] → e' = e) := by
  unfold scanDocumentDirectives
  rw [wpe_bind]
  refine pf_peek h fun e1 s1 h1 h2 h3 h4 => ?_
  obtain rfl := h4 _ hp
  rw [wpe_bind]
  refine wpe_mono (scanDirectivesLoop_pf (dirs := []) (by simpa using h2) seen_nil) ?_
  rintro ⟨stop, d⟩ s2 ⟨g1, more, e', g2, g3, g4, g5, g6, g7⟩
  simp only [wpe_pure]
  exact ⟨g1.trans h1, more, e', by simpa using g2, by simpa using g3, g4, g5, g6, fun hm => g7 hm _ h3⟩

theorem skipDocumentEnds_pf {fuel : Nat} (h : Taken drive p0 acc s) :
    wpe (Blamed drive p0 es) (skipDocumentEnds drive fuel) s fun _ s' => s'.parser = s.parser ∧
      ∃ acc' e, Taken drive p0 acc' s' ∧ openAfter acc' = openAfter acc ∧ s'.tokens.peeked = some e ∧ e.marker ≠ .DocumentEnd ∧
        ∀ e0, s.tokens.peeked = some e0 → e0.marker ≠ .DocumentEnd → acc' = acc ∧ e = e0 := by
  induction fuel generalizing s acc with
  | zero => simp [skipDocumentEnds]
  | succ n ih =>
    unfold skipDocumentEnds
    rw [wpe_bind]
    refine pf_peek h fun e s1 h1 h2 h3 h4 => ?_
    split
    · next hm =>
      rw [wpe_bind]
      refine pf_popP h2 h3 (by simp [*]) fun s2 g1 g2 => ?_
      refine wpe_mono (ih g2) ?_
      rintro _ s' ⟨k1, acc', e', k2, k3, k4, k5, -⟩
      refine ⟨by rw [k1, g1, h1], acc', e', k2, ?_, k4, k5, fun e0 h0 hm0 => absurd (h4 _ h0 ▸ hm) hm0⟩
      rw [k3, openAfter_snoc, openWith_other hm]
    · next hm => exact ⟨h1, acc, e, h2, rfl, h3, hm, fun e0 h0 _ => ⟨rfl, h4 _ h0⟩⟩

theorem documentStart_pf (hf : First s) (h : Inv drive p0 acc es s) {i f : Bool} {ss : List State} {fuel : Nat}
    (hst : s.parser.state = ⟨.DocumentStart i f, ss⟩) :
    wpe (Blamed drive p0 es) (documentStart drive fuel i f) s (After' drive p0 es) := by
  have hss : ss = [] := by
    have := hf.good
    rw [hst] at this
    cases ss with
    | nil => rfl
    | cons q qs => simp [Good, inDoc] at this
  subst hss
  have hat := h.at_
  have ho : openAfter acc = [] := by rw [h.opened, hst]; rfl
  rw [hst] at hat
  unfold documentStart
  rw [wpe_bind]
  have h0 : wpe (Blamed drive p0 es) (skipEndsIf drive fuel i) s fun _ s' => s'.parser = s.parser ∧
      ∃ acc', Taken drive p0 acc' s' ∧ openAfter acc' = [] ∧ (i = true → acc' = acc ∧ s' = s) ∧
        (i = false → ∃ e, s'.tokens.peeked = some e ∧ e.marker ≠ .DocumentEnd ∧ (NodeBefore acc' ∨ e.marker ∈ docNext)) := by
    unfold skipEndsIf
    split
    · next hi => exact ⟨rfl, acc, h.pops, ho, fun _ => ⟨rfl, rfl⟩, by simp [hi]⟩
    · next hi =>
      refine wpe_mono (skipDocumentEnds_pf h.pops) ?_
      rintro _ s' ⟨k1, acc', e, k2, k3, k4, k5, k6⟩
      obtain rfl : i = false := by simpa using hi
      obtain ⟨e0, g1, g2, g3⟩ := hat
      obtain ⟨rfl, rfl⟩ := k6 _ g1 g2
      exact ⟨k1, acc', k2, by rw [k3, ho], by simp, fun _ => ⟨e, k4, k5, g3⟩⟩
  refine wpe_mono h0 ?_
  rintro _ s1 ⟨h1, acc1, h2, ho1, hi1, hi2⟩
  rw [wpe_bind]
  refine pf_peek h2 fun e s2 g1 g2 g3 g4 => ?_
  dsimp only
  split
  · next hc =>
    simp only [Bool.and_eq_true, Bool.not_eq_true', Bool.or_eq_false_iff,
      decide_eq_false_iff_not] at hc
    obtain ⟨hi, ⟨⟨hm1, hm2⟩, hm3⟩, hm4⟩ := hc
    subst hi
    obtain ⟨rfl, rfl⟩ := hi1 rfl
    rw [wpe_bind]
    refine wpe_mono (wpe_and (scanDocumentDirectives_pf g2 g3)
      (scanDocumentDirectives_none (p0 := p0) g2.1 g3 ⟨hm2, hm1⟩)) ?_
    rintro ⟨a, b, d⟩ s3 ⟨-, k1, k2, k3, k4, k5⟩
    simp only [wpe_bind, wpe_pure, wpe_setTop, wpe_pushState, setDirectives, wpe_modify]
    refine ⟨acc1, ⟨k2, g2.2⟩, ?_, ?_, ?_, ?_⟩
    · exact ⟨e, k3, .bare hat (by simp; exact ⟨hm2, hm1, hm3, hm4⟩)⟩
    · simp [k1, g1, hst, StateMachine.push, StateMachine.setTop, ho, frame]
    · simp [k1, g1, hst, StateMachine.push, StateMachine.setTop, resumes]
    · exact fun _ => activeDirectives_start rfl
  · next hc =>
    split
    · next hse =>
      rw [wpe_bind]
      refine wpe_mono (scanDocumentDirectives_pf g2 g3) ?_
      rintro ⟨a, b, d⟩ s3 ⟨k1, dirs, e1, k2, k3, k4, k5, k6, k7⟩
      unfold documentMarker
      simp only [wpe_bind]
      refine pf_peek k2 fun e' s4 l1 l2 l3 l4 => ?_
      obtain rfl := l4 _ k4
      split
      · next hm =>
        rw [wpe_bind]
        refine pf_popP l2 l3 (by simp [*]) fun s5 m1 m2 => ?_
        simp only [wpe_pure, wpe_setTop, wpe_pushState, setDirectives, wpe_modify]
        refine ⟨_, m2, ?_, ?_, ?_, ?_⟩
        · show lastMarker _ = _ ∧ _
          rw [lastMarker_snoc, hm]
          simp [m1, l1, k1, g1, h1, hst, StateMachine.push, StateMachine.setTop]
        · rw [openAfter_snoc, openWith_other hm, directive_flat k3, ho1]
          simp [m1, l1, k1, g1, h1, hst, StateMachine.push, StateMachine.setTop, frame]
        · simp [m1, l1, k1, g1, h1, hst, StateMachine.push, StateMachine.setTop, resumes]
        · exact fun _ => activeDirectives_start rfl
      · next hm =>
        rw [wpe_fail]
        refine blame l2 l3 ?_
        by_cases hd : dirs = []
        · subst hd
          obtain rfl := k7 rfl
          simp only [Bool.and_eq_true, Bool.not_eq_true', Bool.or_eq_false_iff, decide_eq_false_iff_not, not_and] at hc
          cases i with
          | true => exact absurd (hc rfl ⟨⟨k6, k5⟩, hm⟩) (by simpa using hse)
          | false =>
            obtain ⟨e0, he0, hde, hn⟩ := hi2 rfl
            obtain rfl := g4 _ he0
            have hnot : e'.marker ∉ docNext := by
              simp only [docNext, List.mem_cons, List.not_mem_nil, or_false, not_or]
              exact ⟨k5, k6, hm, hde, hse⟩
            rw [List.append_nil]
            exact .afterDocument (by simp [inside, ho1]) (hn.resolve_right hnot) hnot
        · refine .afterDirectives (directive_last k3 hd) ?_
          simp only [List.mem_cons, List.not_mem_nil, or_false, not_or]
          exact ⟨k5, k6, hm⟩
    · next hm =>
      have hm : e.marker = .StreamEnd := by simpa using hm
      split
      · rw [wpe_bind]
        refine wpe_mono (wpe_and (scanDocumentDirectives_pf g2 g3)
          (scanDocumentDirectives_none (p0 := p0) g2.1 g3 (by simp [hm]))) ?_
        rintro ⟨a, b, d⟩ s3 ⟨-, k1, k2, k3, k4, k5⟩
        simp only [wpe_bind, wpe_pure, wpe_setTop, setDirectives, wpe_modify]
        refine ⟨acc1, ⟨k2, g2.2⟩, .inr ⟨e, k3, by simp [hm, docNext]⟩, ?_, ?_, ?_⟩
        · simp [k1, g1, h1, hst, StateMachine.setTop, ho1, frame]
        · simp [k1, g1, h1, hst, StateMachine.setTop]
        · simp [StateMachine.setTop, inDoc]
      · simp only [wpe_bind, wpe_pure, wpe_setTop]
        refine ⟨acc1, g2, trivial, ?_, ?_, ?_⟩
        · simp [g1, h1, hst, StateMachine.setTop, ho1, frame]
        · simp [g1, h1, hst, StateMachine.setTop]
        · simp [StateMachine.setTop, inDoc]

theorem documentEnd_pf (h : Inv drive p0 acc es s) {ss : List State}
    (hst : s.parser.state = ⟨.DocumentEnd, ss⟩) :
    wpe (Blamed drive p0 es) (documentEnd drive) s (After' drive p0 es) := by
  have ho : openAfter acc = s.parser.state.stack.flatMap frame := by rw [h.opened, hst]; rfl
  have hat := h.at_
  unfold documentEnd implicitEnd
  rw [wpe_bind]
  refine pf_peek h.pops fun e s1 h1 h2 h3 h4 => ?_
  rw [wpe_bind]
  split
  · next hm =>
    rw [wpe_bind]
    refine pf_popP h2 h3 (by simp [*]) fun s2 g1 g2 => ?_
    rw [wpe_pure]
    refine simple_pf (s := s) g2 (by simp [*]) h.stack ?_ (.inr (by simp [hm])) (by simp) (by simp [inDoc])
    rw [openAfter_snoc, openWith_other hm, ho]
    rfl
  · next hm =>
    rw [wpe_pure]
    refine simple_pf (s := s) h2 (by simp [*]) h.stack (by rw [ho]; rfl) ⟨e, h3, hm, ?_⟩ (by simp) (by simp [inDoc])
    rw [hst] at hat
    rcases hat with hat | ⟨e0, h0, hn⟩
    · exact .inl hat
    · exact .inr (by rw [h4 _ h0]; exact hn)

theorem explicitDocumentContent_pf (hf : First s) (h : Inv drive p0 acc es s) {ss : List State}
    (hst : s.parser.state = ⟨.DocumentContent, ss⟩) :
    wpe (Blamed drive p0 es) (explicitDocumentContent drive) s (After' drive p0 es) := by
  have hi : inDoc s.parser.state.top = true := by rw [hst]; rfl
  obtain ⟨q, qs, hc⟩ := h.coll hf hi
  have hat := h.at_
  have ho : openAfter acc = s.parser.state.stack.flatMap frame := by rw [hc.opened, hst]; rfl
  rw [hst] at hat
  unfold explicitDocumentContent
  rw [wpe_bind]
  refine pf_peek h.pops fun e s1 h1 h2 h3 _ => ?_
  split
  · next hm =>
    simp only [wpe_bind, wpe_popState, wpe_pure]
    have hpop : s1.parser.state.pop = ⟨.DocumentEnd, []⟩ := by
      unfold StateMachine.pop
      rw [h1, hat.2]
    refine ⟨acc, h2, ?_, ?_, ?_, ?_⟩
    · simp only [hpop]
      refine .inr ⟨e, h3, ?_⟩
      simpa [docNext, or_assoc] using hm
    · simp [hpop, ho, hat.2, frame]
    · simp [hpop]
    · simpa [h1] using fun _ => hc.dirs
  · next hm =>
    simp only [Bool.or_eq_true, decide_eq_true_eq, not_or] at hm
    refine node_pf h2 h3 ⟨⟨q, qs, by rw [h1, hc.stack]⟩, by rw [h1]; exact hc.resumes, by rw [h1]; exact ho, .inl rfl⟩
      (.document hat.1 ?_) (by rw [h1]; exact hc.dirs)
    simpa [and_assoc] using hm

theorem streamStart_pf (h : Inv drive p0 acc es s) {ss : List State}
    (hst : s.parser.state = ⟨.StreamStart, ss⟩) :
    wpe (Blamed drive p0 es) (streamStart drive) s (After' drive p0 es) := by
  have hat := h.at_
  have ho : openAfter acc = s.parser.state.stack.flatMap frame := by rw [h.opened, hst]; rfl
  rw [hst] at hat
  unfold streamStart
  rw [wpe_bind]
  refine pf_peek h.pops fun e s1 h1 h2 h3 _ => ?_
  split
  · next hm =>
    obtain ⟨enc, hw⟩ := marker_streamStart hm
    rw [wpe_bind]
    unfold consumeStreamStart
    rw [wpe_bind]
    refine pf_popP h2 h3 (by simp [*]) fun s2 g1 g2 => ?_
    rw [hw]
    simp only [wpe_pure]
    refine simple_pf (s := s) g2 (by simp [*]) h.stack ?_ (.inl (by simp [hm])) (by simp) (by simp [inDoc])
    rw [openAfter_snoc, openWith_other hm, ho]
    rfl
  · next hm => exact blame h2 h3 (.stream hat hm)

theorem streamEnd_pf (h : Inv drive p0 acc es s) :
    wpe (Blamed drive p0 es) (streamEnd drive) s fun ev s' => s'.parser.done = true ∨ After' drive p0 es ev s' := by
  unfold streamEnd
  rw [wpe_bind, wpe_get]
  split
  · exact .inr ⟨acc, by simpa using h⟩
  · rw [wpe_bind]
    unfold consumeStreamEnd
    rw [wpe_bind]
    refine pf_pop h.pops fun e s1 h1 h2 _ => ?_
    split
    · simp [wpe_bind]
    · simp

theorem stateTransition_pf {fuel : Nat} (hf : First s) (h : Inv drive p0 acc es s) :
    wpe (Blamed drive p0 es) (stateTransition drive fuel) s fun ev s' => s'.parser.done = true ∨ After' drive p0 es ev s' := by
  have key : ∀ {m : PM σ (Option Event)}, wpe (Blamed drive p0 es) m s (After' drive p0 es) →
      wpe (Blamed drive p0 es) m s fun ev s' => s'.parser.done = true ∨ After' drive p0 es ev s' :=
    fun h => wpe_mono h fun _ _ h => .inr h
  unfold stateTransition
  rw [wpe_bind, wpe_get]
  cases hm : s.parser.state with
  | mk t ss =>
    cases t with
    | StreamStart => exact key (streamStart_pf h hm)
    | DocumentStart i f => exact key (documentStart_pf hf h hm)
    | DocumentContent => exact key (explicitDocumentContent_pf hf h hm)
    | DocumentEnd => exact key (documentEnd_pf h hm)
    | BlockNode =>
      have hi : inDoc s.parser.state.top = true := by rw [hm]; rfl
      obtain ⟨q, qs, hc⟩ := h.coll hf hi
      have hat := h.at_
      have ho : openAfter acc = s.parser.state.stack.flatMap frame := by rw [hc.opened, hm]; rfl
      rw [hm] at hat
      obtain ⟨e, he, hd⟩ := hat
      exact key (node_pf h.pops he ⟨⟨q, qs, hc.stack⟩, hc.resumes, ho, .inl rfl⟩ hd hc.dirs)
    | FlowNode =>
      have hat := h.at_
      rw [hm] at hat
      exact hat.elim
    | BlockSequenceEntry b => exact key (blockSequenceEntry_pf hf h hm)
    | BlockMappingKey b => exact key (blockMappingKey_pf hf h hm)
    | BlockMappingValue => exact key (blockMappingValue_pf hf h hm)
    | FlowSequenceEntry b => exact key (flowSequenceEntry_pf hf h hm)
    | FlowSequenceMappingKey => exact key (flowSequenceEntryMappingKey_pf hf h hm)
    | FlowSequenceMappingValue => exact key (flowSequenceEntryMappingValue_pf hf h hm)
    | FlowSequenceMappingEnd => exact key (flowSequenceEntryMappingEnd_pf hf h hm)
    | FlowMappingKey b => exact key (flowMappingKey_pf hf h hm)
    | FlowMappingValue b => exact key (flowMappingValue_pf hf h hm)
    | StreamEnd => exact streamEnd_pf h

theorem nextEventLoop_pf {fuel n : Nat} (hf : First s) (h : s.parser.done = true ∨ ∃ acc, Inv drive p0 acc es s) :
    wpe (Blamed drive p0 es) (nextEventLoop drive fuel n) s fun ev s' =>
      ∀ e, ev = some e → s'.parser.done = true ∨ ∃ acc, Inv drive p0 acc (es ++ [e]) s' := by
  induction n generalizing s with
  | zero => simp [nextEventLoop]
  | succ n ih =>
    unfold nextEventLoop
    rw [wpe_bind, wpe_get]
    split
    · simp
    · next hd =>
      have hd : s.parser.done = false := by simpa using hd
      obtain ⟨acc, h⟩ := h.resolve_left (by simp [hd])
      rw [wpe_bind]
      refine wpe_mono (wpe_and (stateTransition_pf hf h) (stateTransition_tr hf hd)) ?_
      rintro ev s1 ⟨h1, h2, -⟩
      cases ev with
      | some e =>
        rw [wpe_pure]
        rintro _ ⟨⟩
        exact h1
      | none => exact ih h2 (h1.imp id fun ⟨acc, h⟩ => ⟨acc, by simpa using h⟩)

theorem inv_start (drive : Drive σ) (src : σ) : Inv drive (PeekReader.new src) [] [] (start src) where
  pops := ⟨.nil _, by simp⟩
  at_ := rfl
  opened := rfl
  stack := by simp [start, Parser.new]
  dirs := by simp [start, Parser.new, inDoc]

theorem wpe_run {ε α : Type} {E : ε → Prop} {m : SO σ ε α} {st st' : σ} {Q : α → σ → Prop} (h : wpe E m st Q) {a : α}
    (hm : m st = (.ok a, st')) : Q a st' := by
  unfold wpe at h
  rw [hm] at h
  exact h

theorem wpe_run_err {ε α : Type} {E : ε → Prop} {m : SO σ ε α} {st st' : σ} {Q : α → σ → Prop} (h : wpe E m st Q) {e : ε}
    (hm : m st = (.err e, st')) : E e := by
  unfold wpe at h
  rw [hm] at h
  exact h

theorem yields_inv {s' : PS σ} {us : List Event} (h : Yields drive s us s') (hf : First s)
    (hi : s.parser.done = true ∨ ∃ acc, Inv drive p0 acc es s) :
    First s' ∧ (s'.parser.done = true ∨ ∃ acc', Inv drive p0 acc' (es ++ us) s') := by
  induction h generalizing es with
  | nil => exact ⟨hf, by simpa using hi⟩
  | @cons s s1 s2 e us fuel h _ ih =>
    have h1 := wpe_run (nextEventLoop_pf hf hi) h e rfl
    obtain ⟨g1, g2⟩ := ih (nextEvent_tr hf h).1 h1
    exact ⟨g1, by simpa using g2⟩

end Yary.PFault
