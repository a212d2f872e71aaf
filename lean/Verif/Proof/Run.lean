import Verif.Proof.Grammar

/-! Whole calls of `next_event` and histories of them. -/

namespace Yary

open Spec PM

/-- One successful call of `next_event`, seen from the parser. -/
inductive Next : Parser → Option Event → Parser → Prop where
  | done {p : Parser} (h : p.done = true) : Next p none p
  | some {p p' : Parser} {e : Event} (h : p.done = false) (t : Trans p (some e) p') :
      Next p (some e) p'
  | skip {p p' p'' : Parser} {ev : Option Event} (h : p.done = false) (t : Trans p none p')
      (n : Next p' ev p'') : Next p ev p''

namespace Parser

variable {σ : Type} {drive : Drive σ}

theorem srcOk_true : SrcOk True drive := fun _ => trivial

theorem nextEventLoop_spec {fuel n : Nat} {s : PS σ} :
    wp True (nextEventLoop drive fuel n) s fun ev s' => Next s.parser ev s'.parser := by
  induction n generalizing s with
  | zero => simp [nextEventLoop]
  | succ n ih =>
    unfold nextEventLoop
    rw [wp_bind, wp_get]
    split
    · next hd => exact .done hd
    · next hd =>
      have hd : s.parser.done = false := by simpa using hd
      rw [wp_bind]
      refine wp_mono (stateTransition_spec srcOk_true hd) ?_
      intro ev s1 ht
      cases ev with
      | some e => simpa using Next.some hd ht
      | none => exact wp_mono ih fun ev s2 h => .skip hd ht h

theorem wp_ok {ε α : Type} {m : SO σ ε α} {s s' : σ} {a : α} {pan : Prop}
    {Q : α → σ → Prop} (h : wp pan m s Q) (hm : m s = (.ok a, s')) : Q a s' := by
  unfold wp at h
  rw [hm] at h
  exact h

theorem nextEvent_next {fuel : Nat} {s s' : PS σ} {ev : Option Event}
    (h : nextEvent drive fuel s = (.ok ev, s')) : Next s.parser ev s'.parser :=
  wp_ok (Q := fun ev s' => Next s.parser ev s'.parser) nextEventLoop_spec h

/-- A finished parser returns `None` and leaves everything alone. -/
theorem nextEvent_of_done {fuel : Nat} {s : PS σ} (h : s.parser.done = true) :
    nextEvent drive (fuel + 1) s = (.ok none, s) := by
  simp [nextEvent, nextEventLoop, bind, SO.bind, SO.get, h, pure, SO.pure]

end Parser

theorem step_none_done {m m' : StateMachine} {d : Bool} (h : Step m none m' d) : d = false := by
  cases h <;> rfl

theorem step_done {m m' : StateMachine} {e : KEv} {d : Bool} (h : Step m (some e) m' d) :
    d = true ↔ e = .streamEnd := by
  cases h with
  | content h | blockNode h | flowNode h | bseqNode h | bkeyNode h | bvalNode h | fseqNode h
  | fsmKeyNode h | fsmValNode h | fkeyNode h | fvalNode h => cases h <;> simp
  | _ => simp

theorem next_none {p p' : Parser} (h : Next p none p') : p.done = true ∧ p' = p := by
  generalize he : (none : Option Event) = ev at h
  induction h with
  | done h => exact ⟨h, rfl⟩
  | some h t => simp at he
  | skip h t n ih =>
    have := ih he
    have hd := step_none_done t.step
    rw [this.1] at hd
    simp at hd

theorem next_done {p p' : Parser} {e : Event} (h : Next p (some e) p') :
    p.done = false ∧ (p'.done = true ↔ e.data = .StreamEnd) := by
  generalize he : some e = ev at h
  induction h with
  | done h => simp at he
  | some h t =>
    cases he
    refine ⟨h, ?_⟩
    have := step_done t.step
    rw [this]
    obtain ⟨a, b, d⟩ := e
    cases d <;> simp [KEv.of]
  | skip h t n ih => exact ⟨h, (ih he).2⟩

/-- A state in which a document's top node is expected. -/
def rootState : State → Bool
  | .BlockNode | .FlowNode | .DocumentContent => true
  | _ => false

/-- The top node of a document is expected only right after its start. -/
structure RootInv (m : StateMachine) (last : Option KEv) : Prop where
  top : rootState m.top = true → last = some .docStart
  stack : ∀ q ∈ m.stack, rootState q = false

theorem rootInv_pop {t : State} {ss : List State} {l l' : Option KEv}
    (h : RootInv ⟨t, ss⟩ l) (hl : rootState t = true → l' = some .docStart) :
    RootInv (StateMachine.pop ⟨t, ss⟩) l' := by
  cases ss with
  | nil => exact ⟨hl, by simp [StateMachine.pop]⟩
  | cons q qs =>
    refine ⟨?_, ?_⟩
    · intro hr
      have := h.stack q (by simp)
      simp only [StateMachine.pop] at hr
      rw [this] at hr
      exact absurd hr (by simp)
    · intro x hx
      exact h.stack x (by simp only [StateMachine.pop] at hx; simp [hx])

theorem rootInv_node {k : NodeKind} {t : State} {q : State} {qs : List State} {e : KEv}
    {m' : StateMachine} (hn : NodeStep k ⟨t, q :: qs⟩ e m')
    (hs : ∀ x ∈ q :: qs, rootState x = false) : RootInv m' (some e) := by
  have hpop : RootInv (StateMachine.pop ⟨t, q :: qs⟩) (some e) := by
    refine ⟨?_, ?_⟩
    · intro hr
      have := hs q (by simp)
      simp only [StateMachine.pop] at hr
      rw [this] at hr
      exact absurd hr (by simp)
    · intro x hx
      exact hs x (by simp only [StateMachine.pop] at hx; simp [hx])
  cases hn with
  | alias | scalar => exact hpop
  | _ => exact ⟨by simp [StateMachine.setTop, rootState], hs⟩

/-- The invariant is kept by transitions in live states. -/
theorem step_rootInv {m m' : StateMachine} {ev : Option KEv} {d : Bool} {l : Option KEv}
    (h : Step m ev m' d) (hi : RootInv m l) {ra : Prop} (hlive : ∃ w, LangM ra m w) :
    RootInv m' (ev.orElse fun _ => l) := by
  have hs := hi.stack
  cases h with
  | @contentEmpty ss => exact rootInv_pop hi hi.top
  | @content ss e m' h =>
    cases ss with
    | nil => obtain ⟨w, h⟩ := hlive; exact absurd h (by simp [LangM, Lang])
    | cons q qs => exact rootInv_node h hs
  | @blockNode ss e m' h =>
    cases ss with
    | nil => obtain ⟨w, h⟩ := hlive; exact absurd h (by simp [LangM, Lang])
    | cons q qs => exact rootInv_node h hs
  | @flowNode ss e m' h =>
    cases ss with
    | nil => obtain ⟨w, h⟩ := hlive; exact absurd h (by simp [LangM, Lang])
    | cons q qs => exact rootInv_node h hs
  | bseqNode h | bkeyNode h | bvalNode h | fseqNode h
  | fsmKeyNode h | fsmValNode h | fkeyNode h | fvalNode h =>
    refine rootInv_node h ?_
    intro x hx
    rcases List.mem_cons.mp hx with rfl | hx
    · rfl
    · exact hs x hx
  | bseqEnd | bkeyEnd | fseqEnd | fkeyEnd => exact rootInv_pop hi (by simp [rootState])
  | docImplicit | docExplicit =>
    refine ⟨by simp, ?_⟩
    intro x hx
    rcases List.mem_cons.mp hx with rfl | hx
    · rfl
    · exact hs x hx
  | _ => exact ⟨by simp [rootState], hs⟩

theorem rootAliasAt_last {m : StateMachine} {e : KEv} {l : Option KEv} (hi : RootInv m l)
    (h : RootAliasAt m e) : e = .alias ∧ l = some .docStart := by
  refine ⟨h.1, hi.top ?_⟩
  rcases h.2 with h | h | h <;> rw [h] <;> rfl

/-- A history of calls that all produced an event. -/
inductive Run : Parser → List Event → Parser → Prop where
  | nil (p : Parser) : Run p [] p
  | cons {p p' p'' : Parser} {e : Event} {es : List Event} (h : Next p (some e) p')
      (t : Run p' es p'') : Run p (e :: es) p''

/-- The positions of the events. -/
def kevs (es : List Event) : List KEv := es.map fun e => KEv.of e.data

/-- Somewhere an alias directly follows the start of a document. -/
def HasRootAlias (w : List KEv) : Prop := ∃ u v, w = u ++ .docStart :: .alias :: v

theorem next_lang {p p' : Parser} {ev : Option Event} (h : Next p ev p') (ra : Prop)
    {l : Option KEv} (hlive : ∃ w, LangP ra p.state p.done w) (hi : RootInv p.state l)
    (hra : ∀ e, ev = some e → KEv.of e.data = .alias → l = some .docStart → ra) :
    (∃ w, LangP ra p'.state p'.done w) ∧
    (∀ w, LangP ra p'.state p'.done w →
      LangP ra p.state p.done ((ev.map fun e => KEv.of e.data).toList ++ w)) ∧
    (∀ e, ev = some e → RootInv p'.state (some (KEv.of e.data))) := by
  induction h with
  | done h => exact ⟨hlive, fun w h => h, by simp⟩
  | @some p p' e h t =>
    simp only [h, LangP, Bool.false_eq_true, if_false] at hlive ⊢
    have hl := step_lang t.step ra hlive (by
      intro e' he' ha
      have := rootAliasAt_last hi ha
      simp only [Option.map_some, Option.some.injEq] at he'
      exact hra e rfl (by rw [he']; exact this.1) this.2)
    refine ⟨hl.1, hl.2, ?_⟩
    rintro _ ⟨⟩
    exact step_rootInv t.step hi hlive
  | @skip p p' p'' ev h t n ih =>
    simp only [h, LangP, Bool.false_eq_true, if_false] at hlive
    have hl := step_lang t.step ra hlive (by simp)
    have := ih hl.1 (by simpa using step_rootInv t.step hi hlive) hra
    refine ⟨this.1, ?_, this.2.2⟩
    intro w hw
    have h1 := hl.2 _ (this.2.1 w hw)
    simpa [h, LangP] using h1

theorem run_lang {p p' : Parser} {es : List Event} (h : Run p es p') (ra : Prop)
    {l : Option KEv} (hlive : ∃ w, LangP ra p.state p.done w) (hi : RootInv p.state l)
    (hra : HasRootAlias (l.toList ++ kevs es) → ra) :
    (∃ w, LangP ra p'.state p'.done w) ∧
    (∀ w, LangP ra p'.state p'.done w → LangP ra p.state p.done (kevs es ++ w)) := by
  induction h generalizing l with
  | nil p => exact ⟨hlive, fun w h => h⟩
  | @cons p p' p'' e es h t ih =>
    have h1 := next_lang h ra hlive hi (by
      rintro _ ⟨⟩ ha hl
      refine hra ⟨[], kevs es, ?_⟩
      simp [hl, kevs, ha])
    have h2 := ih h1.1 (h1.2.2 e rfl) (by
      rintro ⟨u, v, huv⟩
      refine hra ⟨l.toList ++ u, v, ?_⟩
      rw [List.append_assoc, ← huv]
      simp [kevs])
    refine ⟨h2.1, fun w hw => ?_⟩
    have := h1.2.1 _ (h2.2 w hw)
    simpa [kevs] using this

theorem new_live (ra : Prop) : ∃ w, LangP ra Parser.new.state Parser.new.done w := by
  refine ⟨_, _, rfl, [.docStart, .docEnd], _, rfl, .empty, [], by simp, rfl⟩

theorem new_rootInv : RootInv Parser.new.state none :=
  ⟨by simp [Parser.new, rootState], by simp [Parser.new]⟩

theorem new_stream {ra : Prop} {w : List KEv} (h : LangP ra Parser.new.state Parser.new.done w) :
    Kinded.Stream ra w := by
  obtain ⟨v, rfl, d, _, rfl, hd, docs, hdocs, rfl⟩ := h
  refine ⟨d :: docs, by simp, ?_, by simp⟩
  intro x hx
  rcases List.mem_cons.mp hx with rfl | hx
  · exact hd
  · exact hdocs x hx

/-- Every successful history is a prefix of a stream of the kinded grammar. -/
theorem run_stream {p' : Parser} {es : List Event} (h : Run Parser.new es p') (ra : Prop)
    (hra : HasRootAlias (kevs es) → ra) :
    (∃ rest, Kinded.Stream ra (kevs es ++ rest)) ∧
    (p'.done = true → Kinded.Stream ra (kevs es)) := by
  have := run_lang h ra (new_live ra) new_rootInv (by simpa using hra)
  refine ⟨?_, ?_⟩
  · obtain ⟨w, hw⟩ := this.1
    exact ⟨w, new_stream (this.2 w hw)⟩
  · intro hd
    have := this.2 [] (by simp [LangP, hd])
    simpa using new_stream this

end Yary
