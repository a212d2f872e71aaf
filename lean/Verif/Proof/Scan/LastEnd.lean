import Verif.Proof.Scan.Places
import Verif.Proof.Scan.Nest
import Verif.Proof.Moved.Run

/-! # The marker of the end of a document is the last token of a call -/

namespace Yary

open Spec

variable {opts : SFlags}

/-- Not the end of a document. -/
def Unended (e : TokenEntry) : Prop := e.wrap.marker ≠ .DocumentEnd

/-- The tactic for a token that is none. -/
macro "unended" : tactic => `(tactic| simp [Unended, MaybeToken.marker, Marker.ofToken])

theorem unended_structure {key : Bool} {e : TokenEntry} (h : Structure key e) : Unended e := by
  unfold Unended
  rcases h with h | h | h | ⟨-, h⟩ <;> rw [h] <;> simp

theorem unended_block (r : Nat) : Unended ⟨.Token .BlockEnd, r⟩ := by unended

/-- All but that marker push no end of a document. -/
theorem run_unended {s s' : SS} (hB : Before s) (hm : Scan.dispatch s.sc.context s.sc.stats.column s.buf ≠ .marker false)
    (hs : Scan.run opts (Scan.dispatch s.sc.context s.sc.stats.column s.buf) s = (.ok (), s')) :
    ∃ l, s'.out = s.out ++ l ∧ ∀ e ∈ l, Unended e := by
  by_cases hn : (Scan.dispatch s.sc.context s.sc.stats.column s.buf).isNode = true
  · obtain ⟨tok, h1, h2⟩ := (run_node hB hn hs).out
    refine ⟨_, h2, fun e he => ?_⟩
    simp only [List.mem_singleton] at he
    subst he
    unfold Unended
    dsimp only
    rcases h1 with h | h | h | h <;> rw [h] <;> simp
  · have hd := Closed.dispatch_starts s.sc.context s.sc.stats.column s.buf
    have hp := run_puts hd (fun h => Closed.dispatch_plain h _ rfl) hs
    generalize Scan.dispatch s.sc.context s.sc.stats.column s.buf = f at hs hn hd hm hp
    have marked : (∀ e : TokenEntry, LastOf f e.wrap → Unended e) → ∃ l, s'.out = s.out ++ l ∧ ∀ e ∈ l, Unended e := by
      intro h
      obtain ⟨l, e, h1, h2, h3⟩ := hp
      refine ⟨l ++ [e], by rw [h1, List.append_assoc], fun x hx => ?_⟩
      rcases List.mem_append.1 hx with hx | hx
      · exact unended_structure (h2 x hx)
      · simp only [List.mem_singleton] at hx
        subst hx
        exact h _ h3
    cases f with
    | directive =>
      obtain ⟨t, ht⟩ := hd
      simp only [Scan.run] at hs
      unfold Scan.fetchDirective at hs
      obtain ⟨⟨tok, c⟩, s1, h1, hs⟩ := bind_ok hs
      have hsat := directiveToken_sat (P := True) (opts := opts) (t := t) (m := {}) (.inl trivial) (.inl trivial)
      simp only [Scan.sub, Scan.get, SO.get, bind, SO.bind, SO.lift, ht] at h1
      generalize Scan.directiveToken opts ⟨b! '%' :: t, {}⟩ = x at h1 hsat
      cases x <;> simp at h1
      obtain ⟨rfl, rfl⟩ := h1
      have htok := hsat.2.2
      simp only at htok
      refine Adds.of_eq ?_ hs
      refine (Adds.unroll unended_block _).bind fun _ => Adds.removeKey.bind fun _ => (Adds.upd _).bind fun _ =>
        Adds.get.bind fun _ => (Adds.commit _ _).bind fun _ => Adds.push fun r => ?_
      rcases htok with ⟨a, b, rfl⟩ | ⟨a, b, rfl⟩ <;> unended
    | marker start =>
      cases start with
      | false => exact absurd rfl hm
      | true =>
        refine Adds.of_eq ?_ hs
        exact (Adds.unroll unended_block _).bind fun _ => Adds.removeKey.bind fun _ => (Adds.upd _).bind fun _ =>
          (Adds.advance _).bind fun _ => Adds.push fun r => by unended
    | flowStart map =>
      refine Adds.of_eq ?_ hs
      exact (Adds.upd _).bind fun _ => (Adds.advance _).bind fun _ =>
        (Adds.push fun r => by cases map <;> unended).bind fun _ => Adds.saveKey.bind fun _ => Adds.upd _
    | flowEnd map =>
      refine Adds.of_eq ?_ hs
      exact Adds.removeKey.bind fun _ => Adds.get.bind fun _ => (Adds.lift _).bind fun _ =>
        (Adds.upd _).bind fun _ => (Adds.advance _).bind fun _ => Adds.push fun r => by cases map <;> unended
    | flowEntry => exact marked fun e h => by rw [Unended, show e.wrap.marker = _ from h]; simp
    | blockEntry => exact marked fun e h => by rw [Unended, show e.wrap.marker = _ from h]; simp
    | explicitKey => exact marked fun e h => by rw [Unended, show e.wrap.marker = _ from h]; simp
    | value => exact marked fun e h => by rw [Unended, show e.wrap.marker = _ from h]; simp
    | unknown => simp [Scan.run, SO.fail] at hs
    | _ => simp [Scan.Fetch.isNode] at hn

theorem ite_ne {α : Type} {c : Prop} [Decidable c] {a b m : α} (ha : a ≠ m) (hb : b ≠ m) : (if c then a else b) ≠ m := by
  split <;> assumption

/-- That marker. -/
theorem dispatch_end {x : Context} {column : Nat} {s : Str} (h : Scan.dispatch x column s = .marker false) : s = bytes! "..." ++ s.drop 3 ∧ column = 0 := by
  unfold Scan.dispatch at h
  by_cases h1 : (startsWith s b! '%' && column == 0) = true
  · rw [if_pos h1] at h; cases h
  rw [if_neg h1] at h
  by_cases h2 : (startsMarker s && (column == 0 && isWhiteSpaceZ (s.drop 3))) = true
  · rw [if_pos h2] at h
    injection h with h
    rw [Bool.and_eq_true] at h2
    have hm := h2.1
    refine ⟨?_, by have := h2.2; simp at this; exact this.1⟩
    unfold startsMarker at hm
    split at hm
    · simp [startsWith] at h
    · rfl
    · cases hm
  · rw [if_neg h2] at h
    refine absurd h ?_
    repeat' refine ite_ne (by intro h; cases h) ?_
    intro h; cases h

theorem popLoop_none : ∀ (es : List IndentEntry) (i : Nat), (popLoop none es i).1 = []
  | [], _ => rfl
  | e :: es, i => popLoop_none es e.indent

theorem marker_ok {s s' : SS} (h : Scan.fetchDocumentMarker false s = (.ok (), s')) : s'.sc.key = none ∧
    ((s'.sc.context.flow = 0 → s'.sc.context.indents = []) ∧ s'.sc.simpleKeyAllowed = false ∧ s'.sc.stats.column = s.sc.stats.column + 3) ∧ s'.sc.state = s.sc.state ∧
    s'.buf = s.buf.drop 3 ∧ ∃ l, s'.out = s.out ++ l ++ [⟨.Token .DocumentEnd, s'.sc.stats.read⟩] ∧ ∀ e ∈ l, Unended e := by
  unfold Scan.fetchDocumentMarker at h
  obtain ⟨_, s1, h1, h⟩ := bind_ok h
  obtain ⟨l, g1, g2⟩ := (Adds.unroll unended_block _).of_eq h1
  have g3 : s1.buf = s.buf ∧ s1.sc.state = s.sc.state ∧ s1.sc.stats.column = s.sc.stats.column := by
    simp only [Scan.unrollIndent, SO.modify, Prod.mk.injEq, true_and] at h1
    rw [← h1]
    exact ⟨rfl, rfl, rfl⟩
  have g4 : s1.sc.context.flow = 0 → s1.sc.context.indents = [] := by
    simp only [Scan.unrollIndent, SO.modify, Prod.mk.injEq, true_and] at h1
    rw [← h1]
    dsimp only
    unfold Context.indentDecrement
    split
    · exact fun _ => popLoop_none _ _
    · intro h0
      rename_i hb
      exact absurd (by simpa [Context.isBlock] using h0) hb
  obtain ⟨_, s2, h2, h⟩ := bind_ok h
  obtain rfl := removeKey_ok h2
  obtain ⟨_, s3, h3, h⟩ := bind_ok h
  obtain rfl := upd_ok h3
  obtain ⟨_, s4, h4, h⟩ := bind_ok h
  obtain rfl := advance_ok h4
  obtain rfl := push_ok h
  refine ⟨rfl, ⟨g4, rfl, ?_⟩, g3.2.1, ?_, l, ?_, g2⟩
  · show s1.sc.stats.column + 3 = _
    rw [g3.2.2]
  · show s1.buf.drop 3 = _
    rw [g3.1]
  · show s1.out ++ _ = _
    rw [g1]
    rfl

/-- What a call leaves whose last token is the end of a document. -/
def EndedHere (base : Str) (sc : Scanner) (out : List TokenEntry) : Prop :=
  (∃ o e, out = o ++ [e] ∧ e.wrap = .Token .DocumentEnd ∧ (∀ x ∈ o, Unended x) ∧ (∀ x ∈ o, x.readAt ≤ e.readAt) ∧ e.readAt = sc.stats.read) ∧
    sc.key = none ∧ ((sc.context.flow = 0 → sc.context.indents = []) ∧ sc.simpleKeyAllowed = false ∧ sc.stats.column = 3) ∧ sc.state = .Stream ∧ ∃ P, base = P ++ bytes! "..." ++ base.drop sc.offset ∧ sc.offset = P.length + 3

/-- A step pushes no end of a document, or it pushes that last. -/
theorem step_ended {base : Str} {sc : Scanner} {out : List TokenEntry} {s' : SS} (hb : isBoundary base sc.offset = true)
    (hB : Before ⟨sc, base.drop sc.offset, out⟩) (hd : sc.state ≠ .Done) (ho : ∀ e ∈ out, Unended e)
    (hs : Scan.scanNextToken opts ⟨sc, base.drop sc.offset, out⟩ = (.ok (), s')) :
    (∀ e ∈ s'.out, Unended e) ∨ EndedHere base { s'.sc with offset := base.length - s'.buf.length } s'.out := by
  have add : ∀ {a b : SS}, (∀ e ∈ a.out, Unended e) → (∃ l, b.out = a.out ++ l ∧ ∀ e ∈ l, Unended e) → ∀ e ∈ b.out, Unended e := by
    rintro a b h ⟨l, h1, h2⟩ e he
    rw [h1] at he
    rcases List.mem_append.1 he with he | he
    · exact h e he
    · exact h2 e he
  by_cases hst : sc.state = .Start
  · left
    unfold Scan.scanNextToken at hs
    obtain ⟨a, s0, h1, hs⟩ := bind_ok hs
    obtain ⟨rfl, rfl⟩ := get_ok h1
    simp only [hst, beq_self_eq_true, ↓reduceIte] at hs
    refine add ho (Adds.of_eq (S := Unended) ?_ hs)
    unfold Scan.fetchStreamStart
    exact (Adds.upd _).bind fun _ => Adds.push fun r => by unended
  · obtain ⟨s1, h1, h2⟩ := step_cases_live hs hst
    obtain ⟨hB1, hr, hst1, -⟩ := prepare_ok hB h1
    have ho1 := add (b := s1) ho ((Adds.prepare unended_block).of_eq h1)
    rcases h2 with ⟨-, h2⟩ | ⟨⟨hne, hnd⟩, h2⟩
    · left
      refine add ho1 (Adds.of_eq (S := Unended) ?_ h2)
      unfold Scan.fetchStreamEnd
      exact Adds.get.bind fun _ => (Adds.pure _).ite (((Adds.unroll unended_block _).bind fun _ => Adds.removeKey.bind fun _ =>
        (Adds.upd _).bind fun _ => Adds.push fun r => by unended).ite (Adds.pure _))
    · by_cases hm : Scan.dispatch s1.sc.context s1.sc.stats.column s1.buf = .marker false
      · right
        have hbuf := dispatch_end hm
        rw [hm] at h2
        obtain ⟨g1, g0, g2, g3, l, g4, g5⟩ := marker_ok h2
        have hB' := ((closed_before.scanNextToken (P := True) (opts := opts) (.inl trivial) hB hd).of_ok hs)
        have hsuf : ∃ p, base = p ++ s1.buf := by
          obtain ⟨p, hp⟩ := hr.moves.suffix
          exact ⟨base.take sc.offset ++ p, by rw [List.append_assoc]; simp only at hp; rw [← hp, List.take_append_drop]⟩
        obtain ⟨p, hp⟩ := hsuf
        have hp' : base = (p ++ bytes! "...") ++ s'.buf := by rw [g3, List.append_assoc, ← hbuf.1, ← hp]
        have hlen : base.length - s'.buf.length = p.length + 3 := by
          have := congrArg List.length hp'
          rw [List.length_append, List.length_append, show (bytes! "...").length = 3 from rfl] at this
          omega
        have hstate : s'.sc.state = .Stream := by
          rw [g2, hst1]
          cases h : sc.state with
          | Start => exact absurd h hst
          | Stream => rfl
          | Done => exact absurd h hd
        refine ⟨⟨s1.out ++ l, _, g4, rfl, ?_, ?_, rfl⟩, g1, ⟨g0.1, g0.2.1, g0.2.2.trans (by rw [hbuf.2])⟩, hstate, p, ?_, ?_⟩
        · intro x hx
          rcases List.mem_append.1 hx with hx | hx
          · exact ho1 x hx
          · exact g5 x hx
        · intro x hx
          rcases hB' with ⟨hB', -⟩ | ⟨-, hf⟩
          · exact hB'.out x (by rw [g4]; simp at hx ⊢; exact hx.elim .inl fun h => .inr (.inl h))
          · exfalso
            generalize s' = z at hf hstate
            cases hf
            cases hstate
        · dsimp only
          rw [hlen, ← List.drop_drop (j := p.length)]
          rw [show base.drop p.length = s1.buf by rw [hp, List.drop_left], ← g3]
          exact hp'
        · exact hlen
      · left
        exact add ho1 (run_unended hB1 hm h2)

/-- A call's tokens have no end of a document among them, or have it last. -/
theorem loop_ended {base : Str} (hv : validUtf8 base = true) : ∀ (fuel : Nat) (sc sc' : Scanner) (out out' : List TokenEntry), isBoundary base sc.offset = true →
    Before ⟨sc, base.drop sc.offset, out⟩ → sc.state ≠ .Done → (∀ e ∈ out, Unended e) →
    scanLoop opts base fuel sc out = (.ok (), sc', out') → (∀ e ∈ out', Unended e) ∨ EndedHere base sc' out' := by
  intro fuel
  induction fuel with
  | zero => intro sc sc' out out' _ _ _ _ h; cases h
  | succ fuel ih =>
    intro sc sc' out out' hb hB hd ho h
    rw [Moved.loop_turn] at h
    split at h
    · have hR : Rest (base.drop sc.offset) sc.offset ⟨sc, base.drop sc.offset, out⟩ := ⟨validUtf8_drop hv hb, ⟨[], rfl⟩, rfl, hd⟩
      generalize hs : Scan.scanNextToken opts ⟨sc, base.drop sc.offset, out⟩ = x at h
      obtain ⟨o, s⟩ := x
      cases o with
      | ok u =>
        have h' : scanLoop opts base fuel { s.sc with offset := base.length - s.buf.length } s.out = (.ok (), sc', out') := h
        rcases step_ended hb hB hd ho hs with h1 | h1
        · rcases ((closed_before.and (closed_rest (base.drop sc.offset) sc.offset)).scanNextToken (P := True) (opts := opts) (.inl trivial) ⟨hB, hR⟩ hd).of_ok hs
            with ⟨⟨h2, h3⟩, -⟩ | ⟨-, hf⟩
          · obtain ⟨p, hp⟩ := h3.2.1
            have hp' : ∃ p, base = p ++ s.buf := ⟨base.take sc.offset ++ p, by rw [List.append_assoc, ← hp, List.take_append_drop]⟩
            have hdr : base.drop (base.length - s.buf.length) = s.buf := (suffix_drop hp').symm
            refine ih { s.sc with offset := base.length - s.buf.length } _ _ _ (boundary_of_drop h3.1 hp') ?_ h3.2.2.2 h1 h'
            dsimp only
            rw [hdr]
            exact ⟨h2.valid, h2.out, h2.key⟩
          · have hdone : s.sc.state = .Done := by
              generalize s = z at hf
              cases hf
              rfl
            cases fuel with
            | zero => cases h'
            | succ fuel =>
              rw [scanLoop_done (sc := { s.sc with offset := base.length - s.buf.length }) hdone] at h'
              cases h'
              exact .inl h1
        · right
          obtain ⟨⟨o, e, g1, g2⟩, g3, g4⟩ := h1
          cases fuel with
          | zero => cases h'
          | succ fuel =>
            rw [Moved.loop_turn, if_neg (by simp [Scanner.keyPossible, show s.sc.key = none from g3, g1])] at h'
            cases h'
            exact ⟨⟨o, e, g1, g2⟩, g3, g4⟩
      | err e =>
        simp only [Moved.endTurn] at h
        split at h <;> cases h
      | panic => cases h
      | diverge => cases h
    · cases h
      exact .inl ho

end Yary
