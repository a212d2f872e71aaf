import Verif.Proof.AgainRun
import Verif.Proof.Client
import Verif.Proof.Moved.Next

/-! # What comes after a document that was not ended explicitly -/

namespace Yary.Again

open Spec PM Parser

variable {σ : Type} {drive : Drive σ}

/-- A document has ended because of the token that is next, which stands where the event says. -/
def Shut (ev : Event) (s : PS σ) : Prop :=
  s.parser.done = false ∧ s.parser.state.top = .DocumentStart false false ∧ ∃ t, s.tokens.peeked = some t ∧ t.marker ≠ .DocumentEnd ∧ t.readAt = ev.start

/-- And it does not start another. -/
def Junk (s : PS σ) : Prop :=
  s.parser.done = false ∧ s.parser.state.top = .DocumentStart false false ∧ ∃ t, s.tokens.peeked = some t ∧ t.marker ≠ .DocumentEnd ∧
    t.marker ≠ .StreamEnd ∧ t.marker ≠ .DocumentStart ∧ t.marker ≠ .VersionDirective ∧ t.marker ≠ .TagDirective

theorem documentEnd_shut {s : PS σ} (hd : s.parser.done = false) :
    wp True (Parser.documentEnd drive) s fun ev s' => ∀ e, ev = some e → e.data = .DocumentEnd true → Shut e s' := by
  unfold Parser.documentEnd Parser.implicitEnd
  rw [wp_bind]
  refine wp_peek srcOk_true fun e t he => ?_
  have hp := PeekReader.peek_peeked he
  rw [wp_bind]
  split
  · rw [wp_bind]
    refine wp_pop_peeked hp ?_
    simp only [wp_bind, wp_pure, wp_setTop]
    rintro _ ⟨⟩ h
    cases h
  · next hm =>
    simp only [wp_bind, wp_pure, wp_setTop]
    rintro _ ⟨⟩ -
    exact ⟨hd, rfl, e, hp, hm, rfl⟩

theorem nextEventLoop_shut {fuel n : Nat} {s s' : PS σ} {ev : Event} (h : nextEventLoop drive fuel n s = (.ok (some ev), s'))
    (hev : ev.data = .DocumentEnd true) : Shut ev s' := by
  induction n generalizing s with
  | zero => cases h
  | succ n ih =>
    cases hd : s.parser.done with
    | true => simp [nextEventLoop, bind, SO.bind, SO.get, hd, pure, SO.pure] at h
    | false =>
      rw [nextEventLoop_succ hd] at h
      cases hs : stateTransition drive fuel s with
      | mk o s1 =>
        rw [hs] at h
        cases o with
        | ok ev' =>
          cases ev' with
          | none => exact ih h
          | some ev' =>
            cases h
            have h1 := (wp_ok (stateTransition_spec srcOk_true hd) hs).step
            have htop : s.parser.state.top = .DocumentEnd := Moved.step_docEnd h1 (by dsimp only; rw [hev]; rfl)
            have hdoc : Parser.stateTransition drive fuel s = Parser.documentEnd drive s := by
              unfold Parser.stateTransition
              simp only [Bind.bind, SO.bind, SO.get, htop]
            rw [hdoc] at hs
            exact wp_ok (Q := fun ev s' => ∀ e, ev = some e → e.data = .DocumentEnd true → Shut e s') (documentEnd_shut hd) hs _ rfl hev
        | _ => cases h

theorem junk_start {s : PS σ} (h : Junk s) (n : Nat) : documentStart drive (n + 1) false false s = (.err .MissingDocumentStart, s) := by
  obtain ⟨hd, ht, t, hp, h1, h2, h3, h4, h5⟩ := h
  have hk := peek_held (drive := drive) hp
  unfold documentStart skipEndsIf scanDocumentDirectives documentMarker
  simp only [Bool.false_eq_true, if_false, skipDocumentEnds, bind, SO.bind, hk, h1, pure, SO.pure, Bool.false_and, ne_eq, h2, not_false_eq_true, if_true,
    scanDirectivesLoop]
  generalize t.marker = m at h1 h2 h3 h4 h5
  cases m <;> simp_all [SO.fail, SO.bind]

theorem junk_again {s : PS σ} (h : Junk s) (n : Nat) : nextEvent drive (n + 1) s = (.err .MissingDocumentStart, s) := by
  have hq : stateTransition drive (n + 1) s = (.err .MissingDocumentStart, s) := by
    unfold stateTransition
    simp only [Bind.bind, SO.bind, SO.get, h.2.1]
    exact junk_start h n
  unfold nextEvent
  rw [nextEventLoop_succ h.1, hq]

theorem junk_calls {s s' : PS σ} {b : List (Out ParseError (Option Event))} (h : Calls drive s b s') (hb : Junk s) :
    ∀ o ∈ b, o = .err .MissingDocumentStart := by
  induction h with
  | nil => exact nofun
  | cons fuel h hd t ih =>
    cases fuel with
    | zero => cases h; exact absurd rfl hd
    | succ n =>
      rw [junk_again hb] at h
      simp only [Prod.mk.injEq] at h
      obtain ⟨rfl, rfl⟩ := h
      intro o ho
      rcases List.mem_cons.1 ho with rfl | ho
      · rfl
      · exact ih hb o ho

theorem pop_held {s : PS σ} {e : TokenEntry} (hp : s.tokens.peeked = some e) :
    PM.pop drive s = (.ok e, { s with tokens := { s.tokens with peeked := none } }) := by
  obtain ⟨p, ⟨pk, r⟩⟩ := s
  subst hp
  rfl

/-- If the next call fails for what comes next, that is not the start of a document. -/
theorem shut_fails {ev : Event} {s s' : PS σ} {fuel : Nat} (h : Shut ev s) (hf : nextEvent drive fuel s = (.err .MissingDocumentStart, s')) :
    (∃ t, s.tokens.peeked = some t ∧ t.readAt = ev.start ∧ (t.marker = .VersionDirective ∨ t.marker = .TagDirective)) ∨ Junk s := by
  obtain ⟨hd, ht, t, hp, h1, h2⟩ := h
  have hk := peek_held (drive := drive) hp
  by_cases h4 : t.marker = .VersionDirective
  · exact .inl ⟨t, hp, h2, .inl h4⟩
  by_cases h5 : t.marker = .TagDirective
  · exact .inl ⟨t, hp, h2, .inr h5⟩
  refine .inr ⟨hd, ht, t, hp, h1, ?_, ?_, h4, h5⟩
  · intro hm
    cases fuel with
    | zero => cases hf
    | succ n =>
      have hq : stateTransition drive (n + 1) s = (.ok none, { s with parser := { s.parser with state := { s.parser.state with top := .StreamEnd } } }) := by
        unfold stateTransition
        simp only [Bind.bind, SO.bind, SO.get, ht, documentStart, skipEndsIf, Bool.false_eq_true, if_false, skipDocumentEnds, hk, h1, pure, SO.pure,
          Bool.false_and, hm, ne_eq, not_true_eq_false, reduceCtorEq]
        rfl
      unfold nextEvent at hf
      rw [nextEventLoop_succ hd, hq] at hf
      dsimp only at hf
      cases n with
      | zero => cases hf
      | succ n =>
        rw [nextEventLoop_succ (by exact hd)] at hf
        simp only [stateTransition, bind, SO.bind, SO.get, streamEnd, hd, Bool.false_eq_true, if_false, consumeStreamEnd] at hf
        rw [pop_held (by exact hp)] at hf
        dsimp only at hf
        cases hw : t.wrap with
        | Deferred l => rw [hw] at hf; cases hf
        | Token k => rw [hw] at hf; cases k <;> cases hf
  · intro hm
    cases fuel with
    | zero => cases hf
    | succ n =>
      unfold nextEvent at hf
      rw [nextEventLoop_succ hd] at hf
      unfold stateTransition at hf
      simp only [Bind.bind, SO.bind, SO.get, ht, documentStart, skipEndsIf, Bool.false_eq_true, if_false, skipDocumentEnds, hk, h1, pure, SO.pure,
        Bool.false_and, hm, ne_eq, not_false_eq_true, if_true, scanDocumentDirectives, scanDirectivesLoop, documentMarker, reduceCtorEq] at hf
      rw [pop_held hp] at hf
      cases hf

end Yary.Again
