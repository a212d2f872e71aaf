import Verif.Proof.Moved.Fresh
import Verif.Proof.Moved.Balance
import Verif.Proof.Sound
import Verif.Proof.Grammar

/-! # The first call after an explicit end of a document -/

namespace Yary.Moved

open Spec Parser PM

section Ended

variable {σ : Type} {drive : Drive σ}

/-- The last token taken is that of an explicit end of a document, and the parser is between documents. -/
def Left (drive : Drive σ) (p0 : PeekReader σ) (ev : Event) (s' : PS σ) : Prop :=
  ∃ ts p e, Pops drive p0 ts p ∧ p.pop drive = (.ok (some e), s'.tokens) ∧ e.wrap = .Token .DocumentEnd ∧ ev.start = e.readAt ∧ ev.stop = e.readAt ∧
    s'.parser.state = ⟨.DocumentStart true false, []⟩ ∧ s'.parser.done = false

theorem wrap_of_end {e : TokenEntry} (h : e.marker = .DocumentEnd) : e.wrap = .Token .DocumentEnd := by
  obtain ⟨w, r⟩ := e
  change w.marker = _ at h
  cases w with
  | Deferred l => cases h
  | Token t =>
    change Marker.ofToken t = _ at h
    cases t <;> first | rfl | cases h

theorem documentEnd_left {p0 : PeekReader σ} {acc : List TokenEntry} {s : PS σ} {ss : List State} (hf : First s) (h : Pops drive p0 acc s.tokens)
    (hst : s.parser.state = ⟨.DocumentEnd, ss⟩) (hd : s.parser.done = false) :
    wp True (Parser.documentEnd drive) s fun ev s' => ∀ e, ev = some e → e.data = .DocumentEnd false → Left drive p0 e s' := by
  have hg := hf.good
  rw [hst] at hg
  have hss : ss = [] := by
    cases ss with
    | nil => rfl
    | cons q qs => simp [Good, inDoc] at hg
  subst hss
  unfold Parser.documentEnd Parser.implicitEnd
  rw [wp_bind]
  refine wp_peek srcOk_true fun e t he => ?_
  have hp := PeekReader.peek_peeked he
  rw [wp_bind]
  split
  · next hm =>
    rw [wp_bind]
    refine wp_pop_peeked hp ?_
    simp only [wp_bind, wp_pure, wp_setTop]
    rintro _ ⟨⟩ -
    refine ⟨acc, t, e, h.snoc_peek he, ?_, wrap_of_end hm, rfl, rfl, ?_, hd⟩
    · unfold PeekReader.pop
      rw [hp]
    · simp [hst, StateMachine.setTop]
  · simp only [wp_bind, wp_pure, wp_setTop]
    rintro _ ⟨⟩ h
    cases h

theorem step_docEnd {m m' : StateMachine} {k : KEv} {d : Bool} (h : Step m (some k) m' d) (hk : k = .docEnd) : m.top = .DocumentEnd := by
  have hn : ∀ {kd : NodeKind} {a b : StateMachine}, ¬ NodeStep kd a .docEnd b := fun h => by cases h
  subst hk
  cases h <;> first | rfl | (exact absurd (by assumption) hn)

theorem nextEventLoop_left {p0 : PeekReader σ} {fuel n : Nat} {s : PS σ} {acc : List TokenEntry} (hf : First s) (h : Pops drive p0 acc s.tokens) :
    wp True (Parser.nextEventLoop drive fuel n) s fun ev s' => ∀ e, ev = some e → e.data = .DocumentEnd false → Left drive p0 e s' := by
  induction n generalizing s acc with
  | zero => simp [Parser.nextEventLoop]
  | succ n ih =>
    unfold Parser.nextEventLoop
    rw [wp_bind, wp_get]
    split
    · rw [wp_pure]; intro e he; cases he
    · next hd =>
      have hd : s.parser.done = false := by simpa using hd
      rw [wp_bind]
      by_cases htop : s.parser.state.top = .DocumentEnd
      · have hst : s.parser.state = ⟨.DocumentEnd, s.parser.state.stack⟩ := by rw [← htop]
        have hdoc : Parser.stateTransition drive fuel s = Parser.documentEnd drive s := by
          unfold Parser.stateTransition
          simp only [Bind.bind, SO.bind, SO.get, htop]
        have h1 := Yary.Sound.wp_both (Parser.stateTransition_spec (fuel := fuel) srcOk_true hd) (Parser.stateTransition_tr (drive := drive) (fuel := fuel) hf hd)
        have h2 := documentEnd_left hf h hst hd
        unfold wp at h1 h2 ⊢
        rw [hdoc] at h1 ⊢
        generalize Parser.documentEnd drive s = x at h1 h2
        obtain ⟨o, s1⟩ := x
        cases o with
        | ok ev =>
          cases ev with
          | some e => exact h2
          | none =>
            have hs := h1.1.step
            rw [hst] at hs
            simp only [Option.map_none] at hs
            generalize s1.parser.state = a at hs
            cases hs
        | _ => exact h2
      · refine wp_mono (Yary.Sound.wp_both (Parser.stateTransition_spec srcOk_true hd) (Parser.stateTransition_tr hf hd)) ?_
        rintro ev s1 ⟨⟨h1, -, -⟩, h2, ts, h3, -⟩
        cases ev with
        | none => exact ih h2 (h.append h3)
        | some e =>
          rw [wp_pure]
          rintro _ ⟨⟩ he
          exfalso
          simp only [Option.map_some, he] at h1
          exact htop (step_docEnd h1 rfl)

theorem yields_left {p0 : PeekReader σ} {s s' : PS σ} {es : List Event} (h : Yields drive s es s') {ev : Event} (he : es.getLast? = some ev)
    (hev : ev.data = .DocumentEnd false) : ∀ {acc : List TokenEntry}, First s → Pops drive p0 acc s.tokens → Left drive p0 ev s' := by
  induction h with
  | nil => cases he
  | @cons s s1 s2 e es fuel h t ih =>
    intro acc hf hp
    obtain ⟨h1, ts, h2, -⟩ := Parser.nextEvent_tr hf h
    cases t with
    | nil =>
      simp only [List.getLast?_singleton, Option.some.injEq] at he
      subst he
      exact wp_ok (Q := fun ev s' => ∀ e, ev = some e → e.data = .DocumentEnd false → Left drive p0 e s') (nextEventLoop_left hf hp) h _ rfl hev
    | cons f g t => exact ih (by rw [List.getLast?_cons_cons] at he; exact he) h1 (hp.append h2)

end Ended

variable {σ τ : Type} {α β γ δ : Type} {V : Prop} {w l : Nat} {S : PeekReader σ → PeekReader τ → Prop} {d : Drive σ} {d' : Drive τ}
  {f : Bool}

/-- Nothing is said after an error. -/
def Lax (V : Prop) : Option ParseError → Prop
  | some _ => True
  | none => V

theorem bind_lax {A B : PS σ → PS τ → Prop} {Q : α → β → Prop} {Q' : γ → δ → Prop} {x : PM σ α} {y : PM τ β} {f : α → PM σ γ} {g : β → PM τ δ} {s : PS σ}
    {t : PS τ} (h : Pair (Cut V) A Q (x s) (y t)) (h' : ∀ a b s t, Q a b → A s t → Pair (Lax V) B Q' (f a s) (g b t)) :
    Pair (Lax V) B Q' ((x >>= f) s) ((y >>= g) t) := by
  show Pair _ _ _ (SO.bind x f s) (SO.bind y g t)
  unfold SO.bind
  generalize x s = r at h ⊢
  generalize y t = r' at h ⊢
  cases h with
  | ok hq hs => exact h' _ _ _ _ hq hs
  | err h => exact .err (.inl trivial)
  | panic => exact .panic
  | diverge h => exact .diverge (h.imp (fun h => h) fun h => by obtain ⟨o, t⟩ := r'; cases h; rfl)

/-- A parser before its first document, if `f`, or after the end of a document, and one after the end of a document. -/
def Between (f : Bool) (p p' : Parser) : Prop :=
  p.state = ⟨.DocumentStart true f, []⟩ ∧ p'.state = ⟨.DocumentStart true false, []⟩ ∧ p.done = false ∧ p'.done = false

/-- The same event further on. -/
abbrev Sm (w l : Nat) (e e' : Option Event) : Prop := ∃ x, e = some x ∧ e' = some (x.mv w l)

theorem documentStart_next (hT : Tied V w l S d d') (fuel : Nat) {s : PS σ} {s' : PS τ} (h : PSP (Between f) S s s')
    (hp : ∀ e q, s.tokens.peek d = (.ok (some e), q) → e.marker ≠ .StreamEnd) :
    Pair (Lax V) (PSR S) (Sm w l) (Parser.documentStart d fuel true f s) (Parser.documentStart d' fuel true false s') := by
  have h0 : Pair (Cut V) (PSP (Between f) S) (fun e e' => Ents w l e e' ∧ e.marker ≠ .StreamEnd) (PM.peek d s) (PM.peek d' s') := by
    have h1 := Both.peek (P := Between f) hT _ _ h
    have h2 : ∀ e s1, PM.peek d s = (.ok e, s1) → e.marker ≠ .StreamEnd := by
      intro e s1 he
      have : wp True (PM.peek d) s fun e _ => e.marker ≠ .StreamEnd := wp_peek srcOk_true fun e t he => hp e t he
      exact wp_ok (Q := fun e _ => e.marker ≠ .StreamEnd) this he
    generalize PM.peek d s = r at h1 h2 ⊢
    generalize PM.peek d' s' = r' at h1 ⊢
    cases h1 with
    | ok hq hs => exact .ok ⟨hq, h2 _ _ rfl⟩ hs
    | err h => exact .err h
    | panic => exact .panic
    | diverge h => exact .diverge h
  unfold Parser.documentStart
  refine bind_lax (A := fun a b => a = s ∧ b = s') (Q := Eq) (.ok rfl ⟨rfl, rfl⟩) ?_
  rintro _ _ _ _ - ⟨rfl, rfl⟩
  refine bind_lax h0 ?_
  rintro e e' s t ⟨he, hne⟩ h
  simp only [he.marker]
  split
  · refine bind_lax (scanDocumentDirectives (P := Between f) hT fuel s t h) ?_
    rintro ⟨a, b, c⟩ _ s t rfl ⟨⟨h1, h2, h3, h4⟩, h5⟩
    refine .ok ⟨_, rfl, rfl⟩ ⟨?_, h5⟩
    show Parser.mk _ _ _ = Parser.mk _ _ _
    simp only [h1, h2, h3, h4]
    rfl
  · refine bind_lax (scanDocumentDirectives (P := Between f) hT fuel s t h) ?_
    rintro ⟨a, b, c⟩ _ s t rfl h
    refine bind_lax (documentMarker (P := Between f) hT s t h) ?_
    rintro a _ s t rfl ⟨⟨h1, h2, h3, h4⟩, h5⟩
    refine .ok ⟨_, rfl, rfl⟩ ⟨?_, h5⟩
    show Parser.mk _ _ _ = Parser.mk _ _ _
    simp only [h1, h2, h3, h4]
    rfl

theorem nextEvent_next (hT : Tied V w l S d d') (fuel : Nat) {s : PS σ} {s' : PS τ} (h : PSP (Between f) S s s')
    (hp : ∀ e q, s.tokens.peek d = (.ok (some e), q) → e.marker ≠ .StreamEnd) :
    Pair (Lax V) (PSR S) (Sm w l) (Parser.nextEvent d fuel s) (Parser.nextEvent d' fuel s') := by
  unfold Parser.nextEvent
  cases fuel with
  | zero => exact .diverge (.inr rfl)
  | succ fuel =>
    have h1 := documentStart_next hT (fuel + 1) h hp
    have e1 : Parser.stateTransition d (fuel + 1) s = Parser.documentStart d (fuel + 1) true f s := by
      unfold Parser.stateTransition
      simp only [Bind.bind, SO.bind, SO.get, h.1.1]
    have e2 : Parser.stateTransition d' (fuel + 1) s' = Parser.documentStart d' (fuel + 1) true false s' := by
      unfold Parser.stateTransition
      simp only [Bind.bind, SO.bind, SO.get, h.1.2.1]
    rw [Parser.nextEventLoop_succ h.1.2.2.1, Parser.nextEventLoop_succ h.1.2.2.2, e1, e2]
    generalize Parser.documentStart d (fuel + 1) true f s = r at h1 ⊢
    generalize Parser.documentStart d' (fuel + 1) true false s' = r' at h1 ⊢
    cases h1 with
    | ok hq hs =>
      obtain ⟨x, rfl, rfl⟩ := hq
      exact .ok ⟨x, rfl, rfl⟩ hs
    | err h => exact .err h
    | panic => exact .panic
    | diverge h => exact .diverge (h.imp_right fun h => by obtain ⟨o, t⟩ := r'; cases h; rfl)

/-- As many calls after the end of a document as on a fresh stream return the same further on. -/
theorem calls_next (hT : Tied V w l S d d') {s s1 : PS σ} {s' s1' : PS τ} {os os' : List (Out ParseError (Option Event))} (h : Calls d s os s1)
    (h' : Calls d' s' os' s1') (hl : os'.length = os.length) (hs : PSP (Between f) S s s')
    (hp : ∀ e q, s.tokens.peek d = (.ok (some e), q) → e.marker ≠ .StreamEnd) :
    os'.head? = os.head?.map (Further w l) ∧
      ((∀ e, os.head? = some (.err e) → fromSource e = true) → upToSource os' = (upToSource os).map (Further w l)) := by
  cases h with
  | nil =>
    rw [List.length_nil, List.length_eq_zero_iff] at hl
    subst hl
    exact ⟨rfl, fun _ => rfl⟩
  | @cons _ s2 _ o os fuel h hd t =>
    cases h' with
    | nil => simp at hl
    | @cons _ t2 _ o' os' fuel' g gd gt =>
      have hr := nextEvent_next hT fuel hs hp
      rw [h] at hr
      generalize hy : Parser.nextEvent d' fuel s' = r' at hr
      cases hr with
      | ok hq hs =>
        obtain ⟨rfl, rfl⟩ := Parser.nextEvent_unique g hy gd (fun h => by cases h)
        obtain ⟨x, rfl, rfl⟩ := hq
        have := calls_same hT t hs gt (by simpa using hl)
        exact ⟨rfl, fun _ => by simp [upToSource, this, Further]⟩
      | @err e _ _ hs =>
        obtain ⟨rfl, rfl⟩ := Parser.nextEvent_unique g hy gd (fun h => by cases h)
        refine ⟨rfl, fun he => ?_⟩
        have he := he e rfl
        simp [upToSource, he, Further]
      | panic =>
        obtain ⟨rfl, rfl⟩ := Parser.nextEvent_unique g hy gd (fun h => by cases h)
        exact ⟨rfl, fun _ => rfl⟩
      | diverge h => exact absurd rfl hd

/-- And there are such calls. -/
theorem calls_after (hT : Tied V w l S d d') {s s1 : PS σ} {s' : PS τ} {os : List (Out ParseError (Option Event))} (h : Calls d s os s1) (hs : PSP (Between f) S s s')
    (hp : ∀ e q, s.tokens.peek d = (.ok (some e), q) → e.marker ≠ .StreamEnd) (he : ∀ e, os.head? = some (.err e) → fromSource e = true) :
    ∃ os' s1', Calls d' s' os' s1' ∧ upToSource os' = (upToSource os).map (Further w l) := by
  cases h with
  | nil => exact ⟨[], s', .nil _, rfl⟩
  | @cons _ s2 _ o os fuel h hd t =>
    have hr := nextEvent_next hT fuel hs hp
    rw [h] at hr
    generalize hy : Parser.nextEvent d' fuel s' = r' at hr
    cases hr with
    | ok hq hs =>
      obtain ⟨x, rfl, rfl⟩ := hq
      obtain ⟨os', s1', h3, h4⟩ := calls_mv hT t hs
      exact ⟨_, s1', .cons fuel hy (fun h => by cases h) h3, by simp [upToSource, h4, Further]⟩
    | @err e _ _ hs =>
      have he := he e rfl
      exact ⟨_, _, .cons fuel hy (fun h => by cases h) (.nil _), by simp [upToSource, he, Further]⟩
    | panic => exact ⟨_, _, .cons fuel hy (fun h => by cases h) (.nil _), rfl⟩
    | diverge h => exact absurd rfl hd

/-- After an explicit end of a document the stream goes on as one over what follows does after its start. -/
theorem after_end {opts : SFlags} {base : Str} (hv : validUtf8 base = true) (h0 : Tidy [] ⟨{}, base, []⟩) {es : List Event} {s : PS Scanner} {ev : Event}
    (h : Yields (borrowDrive opts base) (start {}) es s) (he : es.getLast? = some ev) (hev : ev.data = .DocumentEnd false) {toks : List TokenEntry}
    (htoks : Pops (borrowDrive opts base) (PeekReader.new {}) toks s.tokens) (hb : ∀ t ∈ toks, isBlockStart t.marker = false) :
    ∃ P l, base = P ++ bytes! "..." ++ unread base s ∧ ∀ n rest, Skips true (unread base s) n rest → n ≠ 0 → rest ≠ [] →
      ∀ {os : List (Out ParseError (Option Event))} {s1 : PS Scanner}, Calls (borrowDrive opts (unread base s)) (start {}) os s1 →
      (∀ {os' : List (Out ParseError (Option Event))} {s1' : PS Scanner}, Calls (borrowDrive opts base) s os' s1' → os'.length = os.tail.length →
        os'.head? = os.tail.head?.map (Further ev.stop l) ∧
        ((∀ e, os.tail.head? = some (.err e) → fromSource e = true) → upToSource os' = (upToSource os.tail).map (Further ev.stop l))) ∧
      ((∀ e, os.tail.head? = some (.err e) → fromSource e = true) →
        ∃ os' s1', Calls (borrowDrive opts base) s os' s1' ∧ upToSource os' = (upToSource os.tail).map (Further ev.stop l)) := by
  obtain ⟨ts, p, e, h1, h2, h3, -, hstop, h4, h5⟩ := yields_left (p0 := PeekReader.new {}) h he hev (acc := []) (Parser.new_first _) (.nil _)
  have hpk : s.tokens.peeked = none := by
    obtain ⟨q', -, hq⟩ := PeekReader.peek_of_pop h2
    rw [hq]
  obtain ⟨toks', htoks', hf⟩ := yields_even h h4 h5 hpk
  obtain ⟨P, i, g1, g2, g3, g4, g5, g6, g7⟩ := reader_afresh hv h0 h1 h2 h3 htoks hb htoks' hf
  unfold unread
  refine ⟨P, s.tokens.reader.src.stats.lines, g1, ?_⟩
  intro n rest hR hn hr os s1 hc
  have hvR : validUtf8 (base.drop s.tokens.reader.src.offset) = true := validUtf8_drop hv g3
  have hcl : Clean (P ++ bytes! "...").length s.tokens.reader.src := by
    have : (P ++ bytes! "...").length = P.length + 3 := by simp
    rw [this]
    exact g2
  have hdr := fun sc sc' (ha : Anew (P ++ bytes! "...") s.tokens.reader.src sc sc') => drive_afresh (opts := opts) hvR hcl hR hn ha
  rw [← g1] at hdr
  have hT := tied_mv (i := i) hdr
  have hS : PSP (Between true) (RR (Anew (P ++ bytes! "...") s.tokens.reader.src) s.tokens.reader.src.stats.read s.tokens.reader.src.stats.lines i) afterStart s := by
    refine ⟨⟨rfl, h4, rfl, h5⟩, ⟨g4, .inr ⟨rfl, rfl⟩, ?_, g6⟩⟩
    rw [g5]
    rfl
  have hp : ∀ e q, afterStart.tokens.peek (borrowDrive opts (base.drop s.tokens.reader.src.offset)) = (.ok (some e), q) → e.marker ≠ .StreamEnd :=
    fun e q h => fresh_peek hvR hR hr h
  have hw : ev.stop = s.tokens.reader.src.stats.read := by rw [hstop, g7]
  rw [hw]
  cases hc with
  | nil =>
    refine ⟨fun h hl => ?_, fun _ => ⟨[], s, .nil _, rfl⟩⟩
    rw [List.tail_nil, List.length_nil, List.length_eq_zero_iff] at hl
    subst hl
    exact ⟨rfl, fun _ => rfl⟩
  | @cons _ s2 _ o os fuel h hd t =>
    cases fuel with
    | zero => cases h; exact absurd rfl hd
    | succ fuel =>
      rw [first_event] at h
      cases h
      rw [List.tail_cons]
      exact ⟨fun h hl => calls_next hT t h hl hS hp, fun he => calls_after hT t hS hp he⟩

end Yary.Moved
