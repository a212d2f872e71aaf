import Verif.Proof.Steps

/-! Every transition is a step of the (kinded) event grammar. -/

namespace Yary

open Spec PM

namespace Parser

variable {σ : Type} {drive : Drive σ} {pan : Prop}

theorem streamEnd_spec {s : PS σ} (hs : SrcOk True drive) {ss : List State}
    (hst : s.parser.state = ⟨.StreamEnd, ss⟩) (hd : s.parser.done = false) :
    wp True (streamEnd drive) s fun ev s' => Trans s.parser ev s'.parser := by
  unfold streamEnd
  rw [wp_bind, wp_get]
  simp only [hd, Bool.false_eq_true, if_false]
  rw [wp_bind]
  unfold consumeStreamEnd
  rw [wp_bind]
  refine wp_pop hs fun e t _ => ?_
  split
  · simp only [wp_bind, wp_pure, wp_modify]
    refine trans_simple ?_ rfl rfl trivial
    simp only [hst]
    exact .streamEnd
  · simp

theorem stateTransition_spec {s : PS σ} (hs : SrcOk True drive) {fuel : Nat}
    (hd : s.parser.done = false) :
    wp True (stateTransition drive fuel) s fun ev s' => Trans s.parser ev s'.parser := by
  unfold stateTransition
  rw [wp_bind, wp_get]
  have hst : s.parser.state = ⟨s.parser.state.top, s.parser.state.stack⟩ := rfl
  split <;> rename_i ht <;> rw [ht] at hst
  · exact streamStart_spec hs hst hd
  · exact documentStart_spec hs hst hd
  · exact explicitDocumentContent_spec hs hst hd
  · exact documentEnd_spec hs hst hd
  · refine wp_node hs rfl hd fun e m' h => ?_
    rw [hst] at h ⊢
    exact .blockNode h
  · refine wp_node hs rfl hd fun e m' h => ?_
    rw [hst] at h ⊢
    exact .flowNode h
  · exact blockSequenceEntry_spec hs hst hd
  · exact blockMappingKey_spec hs hst hd
  · exact blockMappingValue_spec hs hst hd
  · exact flowSequenceEntry_spec hs hst hd
  · exact flowSequenceEntryMappingKey_spec hs hst hd
  · exact flowSequenceEntryMappingValue_spec hs hst hd
  · exact flowSequenceEntryMappingEnd_spec hs hst hd
  · exact flowMappingKey_spec hs hst hd
  · exact flowMappingValue_spec hs hst hd
  · exact streamEnd_spec hs hst hd

end Parser

/-- Concatenation of languages. -/
def Seg (A B : List KEv → Prop) (w : List KEv) : Prop := ∃ u v, w = u ++ v ∧ A u ∧ B v

/-- A letter, then a word of a language. -/
def Lit (e : KEv) (L : List KEv → Prop) (w : List KEv) : Prop := ∃ v, w = e :: v ∧ L v

open Kinded in
/-- What may follow in a stream between documents: `document* StreamEnd`. -/
def Tail (ra : Prop) (w : List KEv) : Prop :=
  ∃ docs : List (List KEv), (∀ d ∈ docs, Document ra d) ∧ w = docs.flatten ++ [.streamEnd]

open Kinded in
/-- The words that complete a stream from the state `top`, with `stack` below it. -/
def Lang (ra : Prop) : List State → State → List KEv → Prop
  | [], .StreamStart => Lit .streamStart (Seg (Document ra) (Tail ra))
  | [], .DocumentStart _ first => if first then Seg (Document ra) (Tail ra) else Tail ra
  | [], .DocumentEnd => Lit .docEnd (Tail ra)
  | [], .StreamEnd => fun w => w = [.streamEnd]
  | [], _ => fun _ => False
  | s :: ss, t =>
    match t with
    | .BlockNode | .FlowNode => Seg (Kinded.Node ra .Root) (Lang ra ss s)
    | .DocumentContent => fun w => Lang ra ss s w ∨ Seg (Kinded.Node ra .Root) (Lang ra ss s) w
    | .BlockSequenceEntry _ | .FlowSequenceEntry _ =>
      Seg (Entries ra) (Lit .seqEnd (Lang ra ss s))
    | .BlockMappingKey _ | .FlowMappingKey _ => Seg (Pairs ra) (Lit .mapEnd (Lang ra ss s))
    | .BlockMappingValue | .FlowMappingValue _ =>
      Seg (Kinded.Node ra .Value) (Seg (Pairs ra) (Lit .mapEnd (Lang ra ss s)))
    | .FlowSequenceMappingKey =>
      Seg (Kinded.Node ra .Key) (Seg (Kinded.Node ra .Value) (Lit .mapEnd
        (Seg (Entries ra) (Lit .seqEnd (Lang ra ss s)))))
    | .FlowSequenceMappingValue =>
      Seg (Kinded.Node ra .Value) (Lit .mapEnd (Seg (Entries ra) (Lit .seqEnd (Lang ra ss s))))
    | .FlowSequenceMappingEnd => Lit .mapEnd (Seg (Entries ra) (Lit .seqEnd (Lang ra ss s)))
    | _ => fun _ => False

/-- The language of a state machine. -/
def LangM (ra : Prop) (m : StateMachine) : List KEv → Prop := Lang ra m.stack m.top

/-- Some word completes the stream. -/
def Live (m : StateMachine) : Prop := ∃ w, LangM True m w

theorem Seg.intro {A B : List KEv → Prop} {u v : List KEv} (h : A u) (h' : B v) :
    Seg A B (u ++ v) := ⟨u, v, rfl, h, h'⟩

theorem seg_live {A B : List KEv → Prop} {u : List KEv} (hA : A u) (h : ∃ w, B w) :
    ∃ w, Seg A B w := by
  obtain ⟨v, hv⟩ := h
  exact ⟨u ++ v, u, v, rfl, hA, hv⟩

theorem lit_live {e : KEv} {B : List KEv → Prop} (h : ∃ w, B w) : ∃ w, Lit e B w := by
  obtain ⟨v, hv⟩ := h
  exact ⟨e :: v, v, rfl, hv⟩

/-- A word in which an alias directly follows the start of a document. -/
def RootAliasAt (m : StateMachine) (e : KEv) : Prop :=
  e = .alias ∧ (m.top = .BlockNode ∨ m.top = .FlowNode ∨ m.top = .DocumentContent)

open Kinded

/-- What `node` does is what the grammar says of a node followed by whatever the stack expects. -/
theorem nodeStep_lang {k : NodeKind} {t q : State} {qs : List State} {e : KEv} {m' : StateMachine}
    (h : NodeStep k ⟨t, q :: qs⟩ e m') (ra : Prop) (hra : k = .Root → e = .alias → ra) :
    ((∃ w, Lang ra qs q w) → ∃ w, LangM ra m' w) ∧
    ∀ w, LangM ra m' w → Seg (Kinded.Node ra k) (Lang ra qs q) (e :: w) := by
  cases h with
  | alias => exact ⟨fun h => h, fun w h => ⟨[.alias], w, rfl, .alias fun hk => hra hk rfl, h⟩⟩
  | scalar => exact ⟨fun h => h, fun w h => ⟨[.scalar k], w, rfl, .scalar, h⟩⟩
  | seqBlock | seqFlow =>
    refine ⟨fun h => seg_live .nil (lit_live h), ?_⟩
    rintro w ⟨u, v, rfl, hu, v, rfl, hv⟩
    exact ⟨.seqStart k :: u ++ [.seqEnd], v, by simp, .sequence hu, hv⟩
  | mapBlock | mapFlow =>
    refine ⟨fun h => seg_live .nil (lit_live h), ?_⟩
    rintro w ⟨u, v, rfl, hu, v, rfl, hv⟩
    exact ⟨.mapStart k :: u ++ [.mapEnd], v, by simp, .mapping hu, hv⟩

theorem tail_live {ra : Prop} : ∃ w, Tail ra w := ⟨_, [], by simp, rfl⟩

theorem tail_cons {ra : Prop} {w : List KEv} (h : Seg (Document ra) (Tail ra) w) : Tail ra w := by
  obtain ⟨u, v, rfl, hu, docs, hd, rfl⟩ := h
  refine ⟨u :: docs, ?_, by simp⟩
  intro d hd'
  rcases List.mem_cons.mp hd' with rfl | h
  · exact hu
  · exact hd d h

theorem document_seg {ra : Prop} {w : List KEv}
    (h : Seg (Kinded.Node ra .Root) (Lit .docEnd (Tail ra)) w) :
    Seg (Document ra) (Tail ra) (.docStart :: w) := by
  obtain ⟨u, v, rfl, hu, v, rfl, hv⟩ := h
  exact ⟨.docStart :: u ++ [.docEnd], v, by simp, .content hu, hv⟩

theorem document_empty {ra : Prop} {w : List KEv} (h : Lit .docEnd (Tail ra) w) :
    Seg (Document ra) (Tail ra) (.docStart :: w) := by
  obtain ⟨v, rfl, hv⟩ := h
  exact ⟨[.docStart, .docEnd], v, rfl, .empty, hv⟩

theorem docStart_of {ra : Prop} {b : Bool} {w : List KEv} (h : Seg (Document ra) (Tail ra) w) :
    (if b then Seg (Document ra) (Tail ra) else Tail ra) w := by
  cases b
  · exact tail_cons h
  · exact h

/-- The words a finished or unfinished parser may still produce. -/
def LangP (ra : Prop) (m : StateMachine) (done : Bool) (w : List KEv) : Prop :=
  if done then w = [] else LangM ra m w

theorem entries_cons {ra : Prop} {B : List KEv → Prop} {w : List KEv}
    (h : Seg (Kinded.Node ra .Entry) (Seg (Entries ra) B) w) : Seg (Entries ra) B w := by
  obtain ⟨u, v, rfl, hu, a, b, rfl, ha, hb⟩ := h
  exact ⟨u ++ a, b, by simp, .cons hu ha, hb⟩

theorem pairs_cons {ra : Prop} {B : List KEv → Prop} {w : List KEv}
    (h : Seg (Kinded.Node ra .Key) (Seg (Kinded.Node ra .Value) (Seg (Pairs ra) B)) w) : Seg (Pairs ra) B w := by
  obtain ⟨u, v, rfl, hu, a, b, rfl, ha, c, d, rfl, hc, hd⟩ := h
  exact ⟨u ++ (a ++ c), d, by simp, .cons hu ha hc, hd⟩

theorem scalar_seg {ra : Prop} {k : NodeKind} {B : List KEv → Prop} {w : List KEv} (h : B w) :
    Seg (Kinded.Node ra k) B (.scalar k :: w) := ⟨[.scalar k], w, rfl, .scalar, h⟩

theorem step_lang {m m' : StateMachine} {ev : Option KEv} {done : Bool} (h : Step m ev m' done)
    (ra : Prop) (hlive : ∃ w, LangM ra m w)
    (hra : ∀ e, ev = some e → RootAliasAt m e → ra) :
    (∃ w, LangP ra m' done w) ∧
    ∀ w, LangP ra m' done w → LangM ra m (ev.toList ++ w) := by
  have hr : ∀ {k : NodeKind} {t : State} {e : KEv}, m.top = t →
      (t = .BlockNode ∨ t = .FlowNode ∨ t = .DocumentContent) → ev = some e →
      k = .Root → e = .alias → ra := by
    intro k t e ht hc he _ ha
    exact hra e he ⟨ha, by rw [ht]; exact hc⟩
  cases h with
  | @streamStart ss =>
    cases ss with
    | nil =>
      refine ⟨?_, fun w h => ⟨w, rfl, h⟩⟩
      obtain ⟨w, v, rfl, hv⟩ := hlive
      exact ⟨v, hv⟩
    | cons q qs => obtain ⟨w, h⟩ := hlive; exact absurd h (by simp [LangM, Lang])
  | @docImplicit i f ss =>
    cases ss with
    | nil =>
      refine ⟨?_, fun w h => docStart_of (document_seg h)⟩
      exact seg_live .scalar (lit_live tail_live)
    | cons q qs => obtain ⟨w, h⟩ := hlive; exact absurd h (by simp [LangM, Lang])
  | @docExplicit i f ss =>
    cases ss with
    | nil =>
      refine ⟨?_, fun w h => ?_⟩
      · obtain ⟨w, hw⟩ := (lit_live tail_live : ∃ w, Lit .docEnd (Tail ra) w)
        exact ⟨w, .inl hw⟩
      · rcases h with h | h
        · exact docStart_of (document_empty h)
        · exact docStart_of (document_seg h)
    | cons q qs => obtain ⟨w, h⟩ := hlive; exact absurd h (by simp [LangM, Lang])
  | @docFirst i ss =>
    cases ss with
    | nil => exact ⟨lit_live tail_live, fun w h => document_empty h⟩
    | cons q qs => obtain ⟨w, h⟩ := hlive; exact absurd h (by simp [LangM, Lang])
  | @docNone i ss =>
    cases ss with
    | nil =>
      refine ⟨⟨_, rfl⟩, ?_⟩
      rintro w rfl
      exact ⟨[], by simp, rfl⟩
    | cons q qs => obtain ⟨w, h⟩ := hlive; exact absurd h (by simp [LangM, Lang])
  | @docEnd i ss =>
    cases ss with
    | nil => exact ⟨tail_live, fun w h => ⟨w, rfl, h⟩⟩
    | cons q qs => obtain ⟨w, h⟩ := hlive; exact absurd h (by simp [LangM, Lang])
  | @contentEmpty ss =>
    cases ss with
    | nil => obtain ⟨w, h⟩ := hlive; exact absurd h (by simp [LangM, Lang])
    | cons q qs =>
      refine ⟨?_, fun w h => .inl h⟩
      obtain ⟨w, h | ⟨u, v, rfl, hu, hv⟩⟩ := hlive
      · exact ⟨w, h⟩
      · exact ⟨v, hv⟩
  | @content ss e m' h =>
    cases ss with
    | nil => obtain ⟨w, h⟩ := hlive; exact absurd h (by simp [LangM, Lang])
    | cons q qs =>
      have := nodeStep_lang h ra (hr (k := .Root) rfl (by simp) rfl)
      refine ⟨this.1 ?_, fun w h => .inr (this.2 w h)⟩
      obtain ⟨w, h | ⟨u, v, rfl, hu, hv⟩⟩ := hlive
      · exact ⟨w, h⟩
      · exact ⟨v, hv⟩
  | @blockNode ss e m' h =>
    cases ss with
    | nil => obtain ⟨w, h⟩ := hlive; exact absurd h (by simp [LangM, Lang])
    | cons q qs =>
      have := nodeStep_lang h ra (hr (k := .Root) rfl (by simp) rfl)
      refine ⟨this.1 ?_, fun w h => this.2 w h⟩
      obtain ⟨w, u, v, rfl, hu, hv⟩ := hlive
      exact ⟨v, hv⟩
  | @flowNode ss e m' h =>
    cases ss with
    | nil => obtain ⟨w, h⟩ := hlive; exact absurd h (by simp [LangM, Lang])
    | cons q qs =>
      have := nodeStep_lang h ra (hr (k := .Root) rfl (by simp) rfl)
      refine ⟨this.1 ?_, fun w h => this.2 w h⟩
      obtain ⟨w, u, v, rfl, hu, hv⟩ := hlive
      exact ⟨v, hv⟩
  | @bseqEmpty f ss =>
    cases ss with
    | nil => obtain ⟨w, h⟩ := hlive; exact absurd h (by simp [LangM, Lang])
    | cons q qs => exact ⟨hlive, fun w h => entries_cons (scalar_seg h)⟩
  | @bseqNode f ss e m' h =>
    have := nodeStep_lang h ra (by simp)
    cases ss with
    | nil => obtain ⟨w, h⟩ := hlive; exact absurd h (by simp [LangM, Lang])
    | cons q qs => exact ⟨this.1 hlive, fun w h => entries_cons (this.2 w h)⟩
  | @bseqEnd f ss =>
    cases ss with
    | nil => obtain ⟨w, h⟩ := hlive; exact absurd h (by simp [LangM, Lang])
    | cons q qs =>
      refine ⟨?_, fun w h => ⟨[], _, rfl, .nil, w, rfl, h⟩⟩
      obtain ⟨w, u, v, rfl, hu, v, rfl, hv⟩ := hlive
      exact ⟨v, hv⟩
  | @bkeyEmpty f ss =>
    cases ss with
    | nil => obtain ⟨w, h⟩ := hlive; exact absurd h (by simp [LangM, Lang])
    | cons q qs =>
      exact ⟨seg_live .scalar hlive, fun w h => pairs_cons (scalar_seg h)⟩
  | @bkeyNode f ss e m' h =>
    have := nodeStep_lang h ra (by simp)
    cases ss with
    | nil => obtain ⟨w, h⟩ := hlive; exact absurd h (by simp [LangM, Lang])
    | cons q qs =>
      exact ⟨this.1 (seg_live .scalar hlive), fun w h => pairs_cons (this.2 w h)⟩
  | @bkeyEnd f ss =>
    cases ss with
    | nil => obtain ⟨w, h⟩ := hlive; exact absurd h (by simp [LangM, Lang])
    | cons q qs =>
      refine ⟨?_, fun w h => ⟨[], _, rfl, .nil, w, rfl, h⟩⟩
      obtain ⟨w, u, v, rfl, hu, v, rfl, hv⟩ := hlive
      exact ⟨v, hv⟩
  | @bvalEmpty ss =>
    cases ss with
    | nil => obtain ⟨w, h⟩ := hlive; exact absurd h (by simp [LangM, Lang])
    | cons q qs =>
      obtain ⟨w, u, v, rfl, hu, hv⟩ := hlive
      exact ⟨⟨v, hv⟩, fun w h => scalar_seg h⟩
  | @bvalNode ss e m' h =>
    have := nodeStep_lang h ra (by simp)
    cases ss with
    | nil => obtain ⟨w, h⟩ := hlive; exact absurd h (by simp [LangM, Lang])
    | cons q qs =>
      obtain ⟨w, u, v, rfl, hu, hv⟩ := hlive
      exact ⟨this.1 ⟨v, hv⟩, fun w h => this.2 w h⟩
  | @fseqPair f ss =>
    cases ss with
    | nil => obtain ⟨w, h⟩ := hlive; exact absurd h (by simp [LangM, Lang])
    | cons q qs =>
      refine ⟨seg_live .scalar (seg_live .scalar (lit_live hlive)), ?_⟩
      rintro w ⟨u, _, rfl, hu, a, _, rfl, ha, b, rfl, hb⟩
      refine entries_cons ⟨.mapStart .Entry :: (u ++ (a ++ [])) ++ [.mapEnd], b, by simp, ?_, hb⟩
      exact .mapping (.cons hu ha .nil)
  | @fseqNode f ss e m' h =>
    have := nodeStep_lang h ra (by simp)
    cases ss with
    | nil => obtain ⟨w, h⟩ := hlive; exact absurd h (by simp [LangM, Lang])
    | cons q qs => exact ⟨this.1 hlive, fun w h => entries_cons (this.2 w h)⟩
  | @fseqEnd f ss =>
    cases ss with
    | nil => obtain ⟨w, h⟩ := hlive; exact absurd h (by simp [LangM, Lang])
    | cons q qs =>
      refine ⟨?_, fun w h => ⟨[], _, rfl, .nil, w, rfl, h⟩⟩
      obtain ⟨w, u, v, rfl, hu, v, rfl, hv⟩ := hlive
      exact ⟨v, hv⟩
  | @fsmKeyEmpty ss =>
    cases ss with
    | nil => obtain ⟨w, h⟩ := hlive; exact absurd h (by simp [LangM, Lang])
    | cons q qs =>
      obtain ⟨w, u, v, rfl, hu, hv⟩ := hlive
      exact ⟨⟨v, hv⟩, fun w h => scalar_seg h⟩
  | @fsmKeyNode ss e m' h =>
    have := nodeStep_lang h ra (by simp)
    cases ss with
    | nil => obtain ⟨w, h⟩ := hlive; exact absurd h (by simp [LangM, Lang])
    | cons q qs =>
      obtain ⟨w, u, v, rfl, hu, hv⟩ := hlive
      exact ⟨this.1 ⟨v, hv⟩, fun w h => this.2 w h⟩
  | @fsmValEmpty ss =>
    cases ss with
    | nil => obtain ⟨w, h⟩ := hlive; exact absurd h (by simp [LangM, Lang])
    | cons q qs =>
      obtain ⟨w, u, v, rfl, hu, hv⟩ := hlive
      exact ⟨⟨v, hv⟩, fun w h => scalar_seg h⟩
  | @fsmValNode ss e m' h =>
    have := nodeStep_lang h ra (by simp)
    cases ss with
    | nil => obtain ⟨w, h⟩ := hlive; exact absurd h (by simp [LangM, Lang])
    | cons q qs =>
      obtain ⟨w, u, v, rfl, hu, hv⟩ := hlive
      exact ⟨this.1 ⟨v, hv⟩, fun w h => this.2 w h⟩
  | @fsmEnd ss =>
    cases ss with
    | nil => obtain ⟨w, h⟩ := hlive; exact absurd h (by simp [LangM, Lang])
    | cons q qs =>
      obtain ⟨w, v, rfl, hv⟩ := hlive
      exact ⟨⟨v, hv⟩, fun w h => ⟨w, rfl, h⟩⟩
  | @fkeyEmpty f ss =>
    cases ss with
    | nil => obtain ⟨w, h⟩ := hlive; exact absurd h (by simp [LangM, Lang])
    | cons q qs =>
      exact ⟨seg_live .scalar hlive, fun w h => pairs_cons (scalar_seg h)⟩
  | @fkeyNode f b ss e m' h =>
    have := nodeStep_lang h ra (by simp)
    cases ss with
    | nil => obtain ⟨w, h⟩ := hlive; exact absurd h (by simp [LangM, Lang])
    | cons q qs =>
      exact ⟨this.1 (seg_live .scalar hlive), fun w h => pairs_cons (this.2 w h)⟩
  | @fkeyEnd f ss =>
    cases ss with
    | nil => obtain ⟨w, h⟩ := hlive; exact absurd h (by simp [LangM, Lang])
    | cons q qs =>
      refine ⟨?_, fun w h => ⟨[], _, rfl, .nil, w, rfl, h⟩⟩
      obtain ⟨w, u, v, rfl, hu, v, rfl, hv⟩ := hlive
      exact ⟨v, hv⟩
  | @fvalEmpty b ss =>
    cases ss with
    | nil => obtain ⟨w, h⟩ := hlive; exact absurd h (by simp [LangM, Lang])
    | cons q qs =>
      obtain ⟨w, u, v, rfl, hu, hv⟩ := hlive
      exact ⟨⟨v, hv⟩, fun w h => scalar_seg h⟩
  | @fvalNode b ss e m' h =>
    have := nodeStep_lang h ra (by simp)
    cases ss with
    | nil => obtain ⟨w, h⟩ := hlive; exact absurd h (by simp [LangM, Lang])
    | cons q qs =>
      obtain ⟨w, u, v, rfl, hu, hv⟩ := hlive
      exact ⟨this.1 ⟨v, hv⟩, fun w h => this.2 w h⟩
  | @streamEnd ss =>
    cases ss with
    | nil =>
      refine ⟨⟨[], rfl⟩, ?_⟩
      intro w h
      obtain rfl : w = [] := by simpa [LangP] using h
      rfl
    | cons q qs => obtain ⟨w, h⟩ := hlive; exact absurd h (by simp [LangM, Lang])

end Yary
