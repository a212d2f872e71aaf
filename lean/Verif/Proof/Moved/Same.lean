import Verif.Proof.Moved.Blank
import Verif.Proof.Scan.Bottom

/-! # What follows the end of a document does not depend on what was before it -/

namespace Yary.Moved

open Spec

variable {opts : SFlags}

theorem pops_grounded {base : Str} (hv : validUtf8 base = true) {p q : PeekReader Scanner} {ts : List TokenEntry} (t : Pops (borrowDrive opts base) p ts q) :
    ∀ {out : List TokenEntry}, Having base p out → Grounded p.reader.src.context → Grounded q.reader.src.context := by
  have hpk : ∀ {p q : PeekReader Scanner} {out : List TokenEntry} {r : Option TokenEntry}, Having base p out → p.peek (borrowDrive opts base) = (.ok r, q) →
      Grounded p.reader.src.context → Grounded q.reader.src.context := by
    intro p q out r hH h hg
    obtain ⟨-, -, ⟨h1, -⟩ | ⟨-, b, h1, -⟩⟩ := peek_waits hH.rep h
    · rw [h1]; exact hg
    · have := drive_grounded (opts := opts) (base := base) hg
      rw [h1] at this
      exact this
  induction t with
  | nil p => intro out _ h; exact h
  | peek h t ih => intro out h1 hg; exact ih (h1.peek hv h) (hpk h1 h hg)
  | @pop p q p' e ts h t ih =>
    intro out h1 hg
    refine ih (h1.pop hv h) ?_
    obtain ⟨q', h2, rfl⟩ := PeekReader.peek_of_pop h
    exact hpk (q := q') h1 h2 hg

/-- The scanner after the end of a document, as if nothing had been before it but, perhaps, a block collection. -/
def left (b : Bool) : Scanner := { state := .Stream, stats := ⟨0, 0, 3⟩, context := { started := b } }

/-- It and the scanner of a reader that handed out the end of a document. -/
theorem reader_same {base : Str} {p q : PeekReader Scanner} {ts toks toks' : List TokenEntry} {e : TokenEntry} (hv : validUtf8 base = true)
    (h0 : Tidy [] ⟨{}, base, []⟩) (ht : Pops (borrowDrive opts base) (PeekReader.new {}) ts p) (hp : p.pop (borrowDrive opts base) = (.ok (some e), q))
    (he : e.wrap = .Token .DocumentEnd) (htoks : Pops (borrowDrive opts base) (PeekReader.new {}) toks q)
    (htoks' : Pops (borrowDrive opts base) (PeekReader.new {}) toks' q)
    (hf : (toks'.map TokenEntry.marker).countP isFlowStart = (toks'.map TokenEntry.marker).countP isFlowEnd)
    {b : Bool} (hb : b = true ↔ ∃ t ∈ toks, isBlockStart t.marker = true) :
    ∃ P, base = P ++ base.drop q.reader.src.offset ∧ At P q.reader.src.stats.read q.reader.src.stats.lines (left b) q.reader.src := by
  have hg := pops_grounded hv htoks (Having.start hv h0) rfl
  have hH := (Having.pops hv ht (Having.start hv h0)).pop hv hp
  have hG := Having.pops hv htoks (Having.start hv h0)
  obtain ⟨-, -, -, hi, -⟩ := reader_past hv h0 ht hp he htoks' hf
  have hG' := Having.pops hv htoks' (Having.start hv h0)
  rw [List.nil_append] at hH hG hG'
  obtain ⟨q', h1, rfl⟩ := PeekReader.peek_of_pop hp
  have hpk : q'.peeked = some e := (peek_waits (Having.pops hv ht (Having.start hv h0)).rep h1).1
  have hw : waiting { q' with peeked := none } = [] := by
    have hq := (Having.pops hv ht (Having.start hv h0)).peek hv h1
    exact hq.tail [] e (waiting { q' with peeked := none }) (by simp [waiting, hpk]) he
  obtain ⟨⟨g1, ⟨-, g7, g8⟩, g2, P, g3, g4⟩, g5, g6⟩ := hH.last ts e (by rw [hw, List.append_nil]) he
  have hflow : q'.reader.src.context.flow = 0 := by
    obtain ⟨-, ⟨-, hT'⟩ | ⟨hd, -⟩⟩ := hG'.mid
    · rw [hw, List.append_nil] at hT'
      have hn := hT'.1.nest
      rw [show deliver ([] : List TokenEntry) = [] from rfl, List.append_nil] at hn
      have hc := (nest_counts hn).1
      rw [hf] at hc
      dsimp only at hc
      omega
    · dsimp only at hd g2
      rw [g2] at hd
      cases hd
  have hstart : q'.reader.src.context.started = b := by
    obtain ⟨-, ⟨-, hT⟩ | ⟨hd, -⟩⟩ := hG.mid
    · rw [hw, List.append_nil] at hT
      have h2 := hT.2.started
      have h3 := hT.2.seen
      rw [List.append_nil] at h2 h3
      cases b with
      | true => exact h3 (hb.1 rfl)
      | false =>
        cases hs : q'.reader.src.context.started with
        | false => rfl
        | true => exact absurd (hb.2 (h2 hs)) (by simp)
    · dsimp only at hd g2
      rw [g2] at hd
      cases hd
  dsimp only at hi hg g1 g2 g4 g7 g8 ⊢
  have hind : q'.reader.src.context.indent = 0 := by
    unfold Grounded at hg
    rw [hi] at hg
    exact hg
  refine ⟨P ++ bytes! "...", g3, ⟨g2, g7, ?_, g1, ?_⟩, ?_⟩
  · generalize q'.reader.src.stats = m at g8
    obtain ⟨x, y, z⟩ := m
    dsimp only at g8
    subst g8
    simp [left, MStats.mv]
  · generalize q'.reader.src.context = x at hi hflow hstart hind
    obtain ⟨_, _, _, _⟩ := x
    dsimp only at hi hflow hstart hind
    subst hi hflow hstart hind
    rfl
  · rw [g4]
    simp [left]

/-- The scanner over what follows, and the one over all of the text. -/
def Later (P R : Str) (w l : Nat) (sc sc' : Scanner) : Prop := At P w l sc sc' ∧ ∃ D, Midway R (fun _ s => Before s) (fun _ _ => True) sc D

theorem drive_same {P R : Str} {w l : Nat} (hv : validUtf8 R = true) {sc sc' : Scanner} (h : Later P R w l sc sc') :
    DP False w l (Later P R w l) (borrowDrive opts R sc) (borrowDrive opts (P ++ R) sc') := by
  obtain ⟨h1, D, h2⟩ := h
  have h3 := fun o out sc1 => borrow_keeps (opts := opts) (P := True) (I := fun _ s => Before s) (G := fun _ _ => True) (o := o) (out := out) (sc' := sc1)
    (fun _ => closed_before) (fun _ => static_before) (fun _ _ _ _ h => h.next) (fun _ _ _ _ _ _ _ => trivial) (.inl trivial) hv h2
  have h := loop_mv (opts := { opts with extendable := false }) (out := []) (w := w) (l := l) (W := P) hv (R.length + 3) ((P ++ R).length + 3) (by simp) h1
  unfold borrowDrive scanTokens at h3 ⊢
  generalize scanLoop { opts with extendable := false } R (R.length + 3) sc [] = x at h h3 ⊢
  change LP P w l x (scanLoop { opts with extendable := false } (P ++ R) ((P ++ R).length + 3) sc' []) at h
  generalize scanLoop { opts with extendable := false } (P ++ R) ((P ++ R).length + 3) sc' [] = y at h ⊢
  cases h with
  | ok hq hs => exact .ok rfl ⟨hs.2, hs.1, _, (h3 _ _ _ rfl).2.2 (by simp)⟩
  | err h => exact .err (.inl (by intro h; cases h))
  | panic => exact .panic
  | diverge => exact absurd rfl (h3 _ _ _ rfl).2.1

/-- One after the other, where the first keeps a relation of which another follows. -/
theorem bind_keep {σ τ α β γ δ : Type} {V : Prop} {A B : PS σ → PS τ → Prop} {Q : α → β → Prop} {Q' : γ → δ → Prop} {x : PM σ α} {y : PM τ β} {f : α → PM σ γ}
    {g : β → PM τ δ} {s : PS σ} {t : PS τ} (hAB : ∀ s t, A s t → B s t) (h : Pair (Cut V) A Q (x s) (y t))
    (h' : ∀ a b s t, Q a b → A s t → Pair (Cut V) B Q' (f a s) (g b t)) : Pair (Cut V) B Q' ((x >>= f) s) ((y >>= g) t) := by
  show Pair _ _ _ (SO.bind x f s) (SO.bind y g t)
  unfold SO.bind
  generalize x s = r at h ⊢
  generalize y t = r' at h ⊢
  cases h with
  | ok hq hs => exact h' _ _ _ _ hq hs
  | err h => exact .err (h.imp_right (hAB _ _))
  | panic => exact .panic
  | diverge h => exact .diverge (h.imp (fun h => h) fun h => by obtain ⟨o, t⟩ := r'; cases h; rfl)

section One

variable {σ τ : Type} {V : Prop} {w l : Nat} {S : PeekReader σ → PeekReader τ → Prop} {d : Drive σ} {d' : Drive τ}

/-- The same parser, or both between documents. -/
def Kept (S : PeekReader σ → PeekReader τ → Prop) (s : PS σ) (t : PS τ) : Prop := PSR S s t ∨ PSP (Between false) S s t

theorem documentStart_keep (hT : Tied V w l S d d') (fuel : Nat) {s : PS σ} {s' : PS τ} (h : PSP (Between false) S s s')
    (hp : ∀ e q, s.tokens.peek d = (.ok (some e), q) → e.marker ≠ .StreamEnd) :
    Pair (Cut V) (Kept S) (Sm w l) (Parser.documentStart d fuel true false s) (Parser.documentStart d' fuel true false s') := by
  have hk : ∀ s t, PSP (Between false) S s t → Kept S s t := fun _ _ => .inr
  have h0 : Pair (Cut V) (PSP (Between false) S) (fun e e' => Ents w l e e' ∧ e.marker ≠ .StreamEnd) (PM.peek d s) (PM.peek d' s') := by
    have h1 := Both.peek (P := Between false) hT _ _ h
    have h2 : ∀ e s1, PM.peek d s = (.ok e, s1) → e.marker ≠ .StreamEnd := by
      intro e s1 he
      have : wp True (PM.peek d) s fun e _ => e.marker ≠ .StreamEnd := wp_peek Parser.srcOk_true fun e t he => hp e t he
      exact Parser.wp_ok (Q := fun e _ => e.marker ≠ .StreamEnd) this he
    generalize PM.peek d s = r at h1 h2 ⊢
    generalize PM.peek d' s' = r' at h1 ⊢
    cases h1 with
    | ok hq hs => exact .ok ⟨hq, h2 _ _ rfl⟩ hs
    | err h => exact .err h
    | panic => exact .panic
    | diverge h => exact .diverge h
  unfold Parser.documentStart
  refine bind_keep (A := fun a b => a = s ∧ b = s') (Q := Eq) (fun a b hab => hab.1 ▸ hab.2 ▸ .inr h) (.ok rfl ⟨rfl, rfl⟩) ?_
  rintro _ _ _ _ - ⟨rfl, rfl⟩
  refine bind_keep hk h0 ?_
  rintro e e' s t ⟨he, hne⟩ h
  simp only [he.marker]
  split
  · refine bind_keep hk (scanDocumentDirectives (P := Between false) hT fuel s t h) ?_
    rintro ⟨a, b, c⟩ _ s t rfl ⟨⟨h1, h2, h3, h4⟩, h5⟩
    refine .ok ⟨_, rfl, rfl⟩ (.inl ⟨?_, h5⟩)
    show Parser.mk _ _ _ = Parser.mk _ _ _
    simp only [h1, h2, h3, h4]
  · refine bind_keep hk (scanDocumentDirectives (P := Between false) hT fuel s t h) ?_
    rintro ⟨a, b, c⟩ _ s t rfl h
    refine bind_keep hk (documentMarker (P := Between false) hT s t h) ?_
    rintro a _ s t rfl ⟨⟨h1, h2, h3, h4⟩, h5⟩
    refine .ok ⟨_, rfl, rfl⟩ (.inl ⟨?_, h5⟩)
    show Parser.mk _ _ _ = Parser.mk _ _ _
    simp only [h1, h2, h3, h4]

theorem nextEvent_keep (hT : Tied V w l S d d') (fuel : Nat) {s : PS σ} {s' : PS τ} (h : PSP (Between false) S s s')
    (hp : ∀ e q, s.tokens.peek d = (.ok (some e), q) → e.marker ≠ .StreamEnd) :
    Pair (Cut V) (Kept S) (Sm w l) (Parser.nextEvent d fuel s) (Parser.nextEvent d' fuel s') := by
  unfold Parser.nextEvent
  cases fuel with
  | zero => exact .diverge (.inr rfl)
  | succ fuel =>
    have h1 := documentStart_keep hT (fuel + 1) h hp
    have e1 : Parser.stateTransition d (fuel + 1) s = Parser.documentStart d (fuel + 1) true false s := by
      unfold Parser.stateTransition
      simp only [Bind.bind, SO.bind, SO.get, h.1.1]
    have e2 : Parser.stateTransition d' (fuel + 1) s' = Parser.documentStart d' (fuel + 1) true false s' := by
      unfold Parser.stateTransition
      simp only [Bind.bind, SO.bind, SO.get, h.1.2.1]
    rw [Parser.nextEventLoop_succ h.1.2.2.1, Parser.nextEventLoop_succ h.1.2.2.2, e1, e2]
    generalize Parser.documentStart d (fuel + 1) true false s = r at h1 ⊢
    generalize Parser.documentStart d' (fuel + 1) true false s' = r' at h1 ⊢
    cases h1 with
    | ok hq hs =>
      obtain ⟨x, rfl, rfl⟩ := hq
      exact .ok ⟨x, rfl, rfl⟩ hs
    | err h => exact .err h
    | panic => exact .panic
    | diverge h => exact .diverge (h.imp_right fun h => by obtain ⟨o, t⟩ := r'; cases h; rfl)

/-- If one is between documents both are. -/
theorem Kept.between {s : PS σ} {t : PS τ} (h : Kept S s t) (h1 : s.parser.state = ⟨.DocumentStart true false, []⟩) (h2 : s.parser.done = false) :
    PSP (Between false) S s t := by
  rcases h with h | h
  · exact ⟨⟨h1, h.1 ▸ h1, h2, h.1 ▸ h2⟩, h.2⟩
  · exact h

/-- A call after which they are again of one of the kinds. -/
theorem Kept.next (hT : Tied V w l S d d') (fuel : Nat) {s : PS σ} {s' : PS τ} (h : Kept S s s')
    (hp : s.parser.state = ⟨.DocumentStart true false, []⟩ → s.parser.done = false → ∀ e q, s.tokens.peek d = (.ok (some e), q) → e.marker ≠ .StreamEnd) :
    Pair (Cut V) (Kept S) (fun e e' => e' = e.map (·.mv w l)) (Parser.nextEvent d fuel s) (Parser.nextEvent d' fuel s') := by
  rcases h with h | h
  · have h := nextEvent hT fuel _ _ h
    generalize Parser.nextEvent d fuel s = x at h ⊢
    generalize Parser.nextEvent d' fuel s' = y at h ⊢
    cases h with
    | ok hq hs => exact .ok hq (.inl hs)
    | err h => exact .err (h.imp_right .inl)
    | panic => exact .panic
    | diverge h => exact .diverge h
  · have h := nextEvent_keep hT fuel h (hp h.1.1 h.1.2.2.1)
    generalize Parser.nextEvent d fuel s = x at h ⊢
    generalize Parser.nextEvent d' fuel s' = y at h ⊢
    cases h with
    | ok hq hs => obtain ⟨x, rfl, rfl⟩ := hq; exact .ok rfl hs
    | err h => exact .err h
    | panic => exact .panic
    | diverge h => exact .diverge h

end One

section Two

variable {σ τ₁ τ₂ : Type} {w₁ l₁ w₂ l₂ : Nat} {S₁ : PeekReader σ → PeekReader τ₁ → Prop} {S₂ : PeekReader σ → PeekReader τ₂ → Prop}
  {d : Drive σ} {d₁ : Drive τ₁} {d₂ : Drive τ₂}

theorem Pair.returns {σ τ ε α β : Type} {E : Option ε → Prop} {S : σ → τ → Prop} {Q : α → β → Prop} {x : Out ε α × σ} {y : Out ε β × τ} (hE : ¬ E none)
    (h : Pair E S Q x y) (hy : y.1 ≠ .diverge) : x.1 ≠ .diverge := by
  cases h with
  | diverge h => exact absurd (h.resolve_left hE) hy
  | _ => intro h; cases h

/-- All calls return `None`. -/
theorem upTo_none : ∀ {os os' : List (Out ParseError (Option Event))}, (∀ x ∈ os, x = .ok none) → (∀ x ∈ os', x = .ok none) → os'.length = os.length →
    os' = os ∧ upToSource os = os ∧ os.map (Further w₁ l₁) = os ∧ os.map (Further w₂ l₂) = os
  | [], [], _, _, _ => ⟨rfl, rfl, rfl, rfl⟩
  | [], _ :: _, _, _, hl => by simp at hl
  | _ :: _, [], _, _, hl => by simp at hl
  | o :: os, o' :: os', h, h', hl => by
    obtain ⟨rfl, i2, i3, i4⟩ := upTo_none (os := os) (os' := os') (fun x hx => h x (.tail _ hx)) (fun x hx => h' x (.tail _ hx)) (by simpa using hl)
    rw [h o (.head _), h' o' (.head _)]
    exact ⟨rfl, by simp [upToSource, i2], by simp [Further, i3], by simp [Further, i4]⟩

theorem last_of_marker {e : TokenEntry} (h : e.marker = .StreamEnd) : e = ⟨.Token .StreamEnd, e.readAt⟩ := by
  obtain ⟨w, r⟩ := e
  change w.marker = _ at h
  cases w with
  | Deferred l => cases h
  | Token t =>
    change Marker.ofToken t = _ at h
    cases t <;> first | rfl | cases h

/-- Two streams that go on as a third return the same, further on. -/
theorem calls_both (hT₁ : Tied False w₁ l₁ S₁ d d₁) (hT₂ : Tied False w₂ l₂ S₂ d d₂) {s₁ t₁ : PS τ₁} {os₁ : List (Out ParseError (Option Event))}
    (h : Calls d₁ s₁ os₁ t₁) : ∀ {s : PS σ} {s₂ t₂ : PS τ₂} {os₂ : List (Out ParseError (Option Event))}, Kept S₁ s s₁ → Kept S₂ s s₂ → Calls d₂ s₂ os₂ t₂ →
    os₂.length = os₁.length → ∃ ls : List (Out ParseError (Option Event)), upToSource os₁ = ls.map (Further w₁ l₁) ∧ upToSource os₂ = ls.map (Further w₂ l₂) := by
  induction h with
  | nil s₁ =>
    intro s s₂ t₂ os₂ _ _ _ hl
    rw [List.length_nil, List.length_eq_zero_iff] at hl
    subst hl
    exact ⟨[], rfl, rfl⟩
  | @cons s₁ s₁' t₁ o₁ os₁ fuel₁ g₁ n₁ c₁ ih =>
    intro s s₂ t₂ os₂ h₁ h₂ hc hl
    cases hc with
    | nil => simp at hl
    | @cons _ s₂' _ o₂ os₂ fuel₂ g₂ n₂ c₂ =>
      by_cases hp : s.parser.state = ⟨.DocumentStart true false, []⟩ → s.parser.done = false → ∀ e q, s.tokens.peek d = (.ok (some e), q) → e.marker ≠ .StreamEnd
      · have r₁ := h₁.next hT₁ fuel₁ hp
        have r₂ := h₂.next hT₂ fuel₂ hp
        rw [g₁] at r₁
        rw [g₂] at r₂
        have e := Parser.nextEvent_unique (s := s) rfl rfl (r₁.returns id n₁) (r₂.returns id n₂)
        have e : Parser.nextEvent d fuel₂ s = Parser.nextEvent d fuel₁ s := Prod.ext e.1.symm e.2.symm
        rw [e] at r₂
        generalize Parser.nextEvent d fuel₁ s = x at r₁ r₂
        cases r₁ with
        | @ok a _ _ _ hq₁ hs₁ =>
          cases r₂ with
          | ok hq₂ hs₂ =>
            obtain ⟨ls, i₁, i₂⟩ := ih hs₁ hs₂ c₂ (by simpa using hl)
            exact ⟨.ok a :: ls, by rw [hq₁]; simp [upToSource, Further, i₁], by rw [hq₂]; simp [upToSource, Further, i₂]⟩
        | @err e _ _ hs₁ =>
          cases r₂ with
          | err hs₂ =>
            cases he : fromSource e with
            | true => exact ⟨[.err e], by simp [upToSource, he, Further], by simp [upToSource, he, Further]⟩
            | false =>
              have hn : ¬ Cut False (some e) := fun h => by rw [show fromSource e = true from h] at he; cases he
              obtain ⟨ls, i₁, i₂⟩ := ih (hs₁.resolve_left hn) (hs₂.resolve_left hn) c₂ (by simpa using hl)
              exact ⟨.err e :: ls, by simp [upToSource, he, Further, i₁], by simp [upToSource, he, Further, i₂]⟩
        | panic =>
          cases r₂ with
          | panic => exact ⟨[.panic], rfl, rfl⟩
        | diverge h => exact absurd (h.resolve_left id) n₁
      · obtain ⟨b₁, b₂, e, q, hpe, hm⟩ : s.parser.state = ⟨.DocumentStart true false, []⟩ ∧ s.parser.done = false ∧
            ∃ e q, s.tokens.peek d = (.ok (some e), q) ∧ e.marker = .StreamEnd := by
          refine Classical.byContradiction fun hne => hp fun b₁ b₂ e q h1 h2 => hne ⟨b₁, b₂, e, q, h1, h2⟩
        have h₁ := h₁.between b₁ b₂
        have h₂ := h₂.between b₁ b₂
        have he := last_of_marker hm
        generalize e.readAt = r at he
        subst he
        have k₁ := hT₁ .peek _ _ h₁.2
        have k₂ := hT₂ .peek _ _ h₂.2
        simp only [ROp.run, hpe] at k₁ k₂
        generalize hy₁ : s₁.tokens.peek d₁ = y₁ at k₁
        generalize hy₂ : s₂.tokens.peek d₂ = y₂ at k₂
        cases k₁ with
        | ok hq₁ _ =>
          cases k₂ with
          | ok hq₂ _ =>
            subst hq₁ hq₂
            obtain ⟨u₁, m₁, x₁⟩ := nextEvent_last 0 h₁.1.2.1 h₁.1.2.2.2 hy₁ (PeekReader.peek_peeked hy₁)
            obtain ⟨u₂, m₂, x₂⟩ := nextEvent_last 0 h₂.1.2.1 h₂.1.2.2.2 hy₂ (PeekReader.peek_peeked hy₂)
            obtain ⟨rfl, rfl⟩ := Parser.nextEvent_unique g₁ m₁ n₁ nofun
            obtain ⟨rfl, rfl⟩ := Parser.nextEvent_unique g₂ m₂ n₂ nofun
            obtain ⟨rfl, i₂, i₃, i₄⟩ := upTo_none (w₁ := w₁) (l₁ := l₁) (w₂ := w₂) (l₂ := l₂) (calls_done c₁ x₁) (calls_done c₂ x₂) (by simpa using hl)
            refine ⟨.ok (some ⟨r, r, .StreamEnd⟩) :: os₂, ?_, ?_⟩
            · rw [List.map_cons, i₃, upToSource, i₂]; rfl
            · rw [List.map_cons, i₄, upToSource, i₂]; rfl

end Two

/-- Where the stream over a text goes on after an explicit end of a document. -/
theorem end_same {base : Str} (hv : validUtf8 base = true) (h0 : Tidy [] ⟨{}, base, []⟩) {es : List Event} {s : PS Scanner} {ev : Event}
    (h : Yields (borrowDrive opts base) (start {}) es s) (he : es.getLast? = some ev) (hev : ev.data = .DocumentEnd false) {toks : List TokenEntry}
    (htoks : Pops (borrowDrive opts base) (PeekReader.new {}) toks s.tokens) {b : Bool} (hb : b = true ↔ ∃ t ∈ toks, isBlockStart t.marker = true) :
    ∃ P l i, base = P ++ unread base s ∧ validUtf8 (unread base s) = true ∧
      PSP (Between false) (RR (Later P (unread base s) ev.stop l) ev.stop l i)
        ⟨{ (Parser.new) with state := ⟨.DocumentStart true false, []⟩ }, ⟨none, ⟨left b, ⟨[], 0⟩, false⟩⟩⟩ s := by
  obtain ⟨ts, p, e, h1, h2, h3, -, hstop, h4, h5⟩ := yields_left (p0 := PeekReader.new {}) h he hev (acc := []) (Parser.new_first _) (.nil _)
  have hpk : s.tokens.peeked = none := by
    obtain ⟨q', -, hq⟩ := PeekReader.peek_of_pop h2
    rw [hq]
  obtain ⟨toks', htoks', hf⟩ := yields_even h h4 h5 hpk
  obtain ⟨g1, -, -, -, g5, ⟨i, g6⟩, g7, g8⟩ := reader_past hv h0 h1 h2 h3 htoks' hf
  obtain ⟨P, k1, k2⟩ := reader_same hv h0 h1 h2 h3 htoks htoks' hf hb
  have hR : validUtf8 (unread base s) = true := validUtf8_drop hv g1
  rw [hstop, g8]
  refine ⟨P, s.tokens.reader.src.stats.lines, i, k1, hR, ⟨rfl, h4, rfl, h5⟩, g5, ⟨k2, [], ?_⟩, ?_, g7⟩
  · refine ⟨by simp [left, isBoundary], .inl ⟨by simp [left], ?_, fun e he => (by cases he), fun k hk => (by cases hk)⟩⟩
    simpa [left] using hR
  · rw [g6]
    show (⟨[], i⟩ : Queue TokenEntry) = ⟨[], 0 + i⟩
    rw [Nat.zero_add]

end Yary.Moved
