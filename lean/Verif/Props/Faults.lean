import Verif.Proof.Scan.FaultStep
import Verif.Props.Signs
import Verif.Props.Places

/-! # Scan errors name what is wrong -/

namespace Yary

open Spec

variable {opts : SFlags} {text : List Char}

theorem wrong_place {lazy : Bool} {flow base column : Nat} {P Q : Prop} {e : ScanError} {s : Str} (h : flow = 0 → (Q → P))
    (hw : Wrong lazy flow base column P e s) : Wrong lazy flow base column Q e s := by
  cases hw with
  | reserved h => exact .reserved h
  | entry ht h' =>
    refine .entry ht ?_
    by_cases h0 : flow = 0
    · exact .inr fun hq => h'.elim (absurd h0) fun hp => hp (h h0 hq)
    · exact .inl h0
  | key ht hf h' => exact .key ht hf fun hq => h' (h hf hq)
  | value ht hf h' => exact .value ht hf fun hq => h' (h hf hq)
  | unbalanced hb hf => exact .unbalanced hb hf
  | anchor h => exact .anchor h
  | tag h => exact .tag h
  | directive hc h => exact .directive hc h
  | quoted hl h => exact .quoted hl h
  | unclosed hl h => exact .unclosed hl h
  | block hf h => exact .block hf h

/-! ### C55 -/

/-- **C55**: an error of the scanner names what is wrong with the text: more text is needed, which is only said if there may be more, or a
key has no value, or the characters that are next, after white space and comments, are wrong in the way the error says. -/
theorem C55_means {l : List TokenEntry} {s s' : SS} {e : ScanError} (h : After opts (utf8 text) l s) (hst : s.sc.state = .Stream)
    (hs : Scan.scanNextToken opts s = (.err e, s')) :
    e = .Extend ∧ opts.extendable = true ∨ e = .MissingValue ∧ KeyDue s ∨
      ∃ n p r, s.buf = p ++ r ∧ Skips true s.buf n r ∧
        Wrong opts.lazy s.sc.context.flow (s'.sc.context.level.getD 0) (posAfter s.sc.stats p).column (Place l n) e r := by
  have hv : validUtf8 (utf8 text) = true := (validUtf8_iff _).2 ⟨text, rfl⟩
  rcases step_fails (reach_before hv (after_reach h)) hst hs with h1 | h1 | ⟨s1, n, p, h1, h2, h3, h4, h5, h6⟩
  · exact .inl h1
  · exact .inr (.inl h1)
  · refine .inr (.inr ⟨n, p, s1.buf, h1, h2, ?_⟩)
    unfold WrongHere at h6
    rw [h3, h4] at h6
    exact wrong_place (fun h0 => (place_iff h (by rw [hst]; simp) h0 h5).2) h6

theorem steps_after {base : Str} {n : Nat} (h : stepsOk opts (n + 1) ⟨{}, base, []⟩ = true) :
    ∃ l, After opts base l (steps opts (n + 1) ⟨{}, base, []⟩) := by
  have key : ∀ n {s : SS}, Reach true opts base s → stepsOk opts (n + 1) s = true → ∃ l, After opts base l (steps opts (n + 1) s) := by
    intro n
    induction n with
    | zero =>
      intro s hr h
      simp only [stepsOk, Bool.and_eq_true, decide_eq_true_eq, beq_iff_eq] at h
      exact ⟨_, .step hr h.1.1 (Prod.ext h.1.2 rfl)⟩
    | succ n ih =>
      intro s hr h
      rw [stepsOk] at h
      simp only [Bool.and_eq_true, decide_eq_true_eq, beq_iff_eq] at h
      exact ih (.step hr h.1.1 (Prod.ext h.1.2 rfl)) h.2
  exact key n .start h

/-- After `a:`, a block sequence cannot begin on the same line. -/
example : (∃ l, After {} (utf8 "a: - b".toList) l (steps {} 3 ⟨{}, utf8 "a: - b".toList, []⟩)) ∧
    (steps {} 3 ⟨{}, utf8 "a: - b".toList, []⟩).sc.state = .Stream ∧
    (Scan.scanNextToken {} (steps {} 3 ⟨{}, utf8 "a: - b".toList, []⟩)).1 = .err .InvalidBlockEntry :=
  ⟨steps_after (by decide +kernel), by decide +kernel, by decide +kernel⟩

/-- An escape that there is not. -/
example : (∃ l, After {} (utf8 "\"a\\q\"".toList) l (steps {} 1 ⟨{}, utf8 "\"a\\q\"".toList, []⟩)) ∧
    (steps {} 1 ⟨{}, utf8 "\"a\\q\"".toList, []⟩).sc.state = .Stream ∧
    (Scan.scanNextToken {} (steps {} 1 ⟨{}, utf8 "\"a\\q\"".toList, []⟩)).1 = .err .UnknownEscape :=
  ⟨steps_after (by decide +kernel), by decide +kernel, by decide +kernel⟩

/-! ### Readers -/

/-- Between calls of a reader, before an error. -/
def Unfailed (opts : SFlags) (base : Str) (s : SS) : Prop := Reach false opts base s ∧ (s.sc.state = .Start ∨ ∃ l, After opts base l s)

theorem reach_errs {base : Str} {s : SS} (h : Reach false opts base s) : Reach true opts base s := by
  induction h with
  | start => exact .start
  | step _ hd hs ih => exact .step ih hd hs
  | fail he => cases he
  | more he => cases he
  | hand _ ih => exact .hand ih
  | offset n _ ih => exact .offset n ih

namespace Unfailed

variable {base : Str} {s s' : SS}

theorem step (h : Unfailed opts base s) (hd : s.sc.state ≠ .Done) (hs : Scan.scanNextToken opts s = (.ok (), s')) : Unfailed opts base s' :=
  ⟨.step h.1 hd hs, .inr ⟨_, .step (reach_errs h.1) hd hs⟩⟩

theorem hand (h : Unfailed opts base s) : Unfailed opts base ⟨s.sc, s.buf, []⟩ := ⟨.hand h.1, h.2.imp id fun ⟨l, h⟩ => ⟨l, .hand h⟩⟩

theorem offset (n : Nat) (h : Unfailed opts base s) : Unfailed opts base ⟨{ s.sc with offset := n }, s.buf, s.out⟩ :=
  ⟨.offset n h.1, h.2.imp id fun ⟨l, h⟩ => ⟨l, .offset n h⟩⟩

end Unfailed

/-- A call of the scanner: it goes on, or one of its steps fails. -/
theorem loop_live {base : Str} (hv : validUtf8 base = true) : ∀ fuel (sc : Scanner) (out : List TokenEntry)
    {o : Out ScanError Unit} {sc' : Scanner} {out' : List TokenEntry}, Unfailed opts base ⟨sc, base.drop sc.offset, out⟩ →
    scanLoop opts base fuel sc out = (o, sc', out') → (o = .ok () → Unfailed opts base ⟨sc', base.drop sc'.offset, out'⟩) ∧
      ∀ e, o = .err e → ∃ s s', Unfailed opts base s ∧ s.sc.state ≠ .Done ∧ Scan.scanNextToken opts s = (.err e, s') := by
  intro fuel
  induction fuel with
  | zero =>
    intro sc out o sc' out' _ h
    simp only [scanLoop, Prod.mk.injEq] at h
    rw [← h.1]
    exact ⟨fun h => (by cases h), fun _ h => by cases h⟩
  | succ fuel ih =>
    intro sc out o sc' out' hL h
    rw [scanLoop] at h
    by_cases hgo : (decide (sc.state ≠ .Done) && (out.isEmpty || sc.keyPossible)) = true
    · rw [if_pos hgo] at h
      have hd : sc.state ≠ .Done := by
        simp only [ne_eq, Bool.and_eq_true, decide_eq_true_eq] at hgo
        exact hgo.1
      by_cases hb : isBoundary base sc.offset = true
      · rw [if_pos hb] at h
        cases hs : Scan.scanNextToken opts ⟨sc, base.drop sc.offset, out⟩ with
        | mk r s =>
          rw [hs] at h
          cases r with
          | ok a =>
            simp only at h
            have hL' := hL.step hd hs
            obtain ⟨p, hp⟩ := (reach_tailOf hv hL'.1).suffix
            have e1 : base.drop (base.length - s.buf.length) = s.buf := by rw [hp]; simp
            refine ih _ _ ?_ h
            simp only
            rw [e1]
            exact hL'.offset _
          | err e =>
            simp only at h
            have : o = .err e := by split at h <;> (simp only [Prod.mk.injEq] at h; exact h.1.symm)
            subst this
            exact ⟨fun h => (by cases h), fun e' h => by cases h; exact ⟨_, _, hL, hd, hs⟩⟩
          | panic =>
            simp only [Prod.mk.injEq] at h
            rw [← h.1]
            exact ⟨fun h => (by cases h), fun _ h => by cases h⟩
          | diverge =>
            simp only [Prod.mk.injEq] at h
            rw [← h.1]
            exact ⟨fun h => (by cases h), fun _ h => by cases h⟩
      · rw [if_neg hb] at h
        exact ih _ _ hL h
    · rw [if_neg hgo] at h
      simp only [Prod.mk.injEq] at h
      obtain ⟨rfl, rfl, rfl⟩ := h
      exact ⟨fun _ => hL, fun _ h => by cases h⟩

/-- One drive. -/
theorem drive_live {sc : Scanner} {o : Out ReaderError Unit} {b : List TokenEntry} {sc' : Scanner}
    (hL : Unfailed { opts with extendable := false } (utf8 text) ⟨sc, (utf8 text).drop sc.offset, []⟩)
    (hd : borrowDrive opts (utf8 text) sc = (o, b, sc')) :
    (o = .ok () → Unfailed { opts with extendable := false } (utf8 text) ⟨sc', (utf8 text).drop sc'.offset, []⟩) ∧
      ∀ e, o = .err e → ∃ e' s s', e = .Scanner e' ∧ Unfailed { opts with extendable := false } (utf8 text) s ∧ s.sc.state ≠ .Done ∧
        Scan.scanNextToken { opts with extendable := false } s = (.err e', s') := by
  have hv : validUtf8 (utf8 text) = true := (validUtf8_iff _).2 ⟨text, rfl⟩
  unfold borrowDrive at hd
  cases hr : scanTokens { opts with extendable := false } (utf8 text) sc with
  | mk o' r =>
    obtain ⟨sc1, out1⟩ := r
    have := loop_live hv _ _ _ hL hr
    rw [hr] at hd
    cases o' with
    | ok u =>
      simp only [Prod.mk.injEq] at hd
      obtain ⟨rfl, rfl, rfl⟩ := hd
      exact ⟨fun _ => (this.1 rfl).hand, fun _ h => by cases h⟩
    | err e =>
      simp only [Prod.mk.injEq] at hd
      obtain ⟨rfl, rfl, rfl⟩ := hd
      refine ⟨fun h => (by cases h), fun e' h => ?_⟩
      cases h
      obtain ⟨s, s', h1, h2, h3⟩ := this.2 e rfl
      exact ⟨e, s, s', rfl, h1, h2, h3⟩
    | panic =>
      simp only [Prod.mk.injEq] at hd
      rw [← hd.1]
      exact ⟨fun h => (by cases h), fun _ h => by cases h⟩
    | diverge =>
      simp only [Prod.mk.injEq] at hd
      rw [← hd.1]
      exact ⟨fun h => (by cases h), fun _ h => by cases h⟩

/-- The scanner of a reader, before an error. -/
theorem reader_live {ops : List ROp} (h : AllOk (history opts text ops)) :
    Unfailed { opts with extendable := false } (utf8 text) ⟨(readerAfter opts text ops).reader.src,
      (utf8 text).drop (readerAfter opts text ops).reader.src.offset, []⟩ := by
  obtain ⟨D, hD, -⟩ := reader_keeps (drive := borrowDrive opts (utf8 text)) (K := fun o => o = .ok ())
    (J := fun sc _ => Unfailed { opts with extendable := false } (utf8 text) ⟨sc, (utf8 text).drop sc.offset, []⟩) (src := {})
    (fun sc D o b s' hJ hd hK => (drive_live hJ hd).1 hK) ⟨.start, .inl rfl⟩ ops (fun x hx => by
      obtain ⟨r, hr⟩ := h x hx
      rw [hr]; rfl)
  exact hD

/-- An error of a reader is one of its source. -/
theorem run_err {σ : Type} {drive : Drive σ} {op : ROp} {p p' : PeekReader σ} {e : ReaderError} (h : op.run drive p = (.err e, p')) :
    ∃ b s', drive p.reader.src = (.err e, b, s') := by
  have take : ∀ {q}, p.takeNext drive = (.err e, q) → ∃ b s', drive p.reader.src = (.err e, b, s') := by
    intro q hq
    unfold PeekReader.takeNext at hq
    by_cases hp : p.peeked.isSome = true
    · rw [if_pos hp] at hq; simp at hq
    · rw [if_neg hp] at hq
      by_cases he : p.reader.queue.isEmpty = true
      · simp only [he, ↓reduceIte, Reader.scanTokens] at hq
        generalize drive p.reader.src = d at hq
        obtain ⟨o, b, s'⟩ := d
        cases o with
        | ok u => simp at hq
        | err e1 =>
          simp only [Prod.mk.injEq, Out.err.injEq] at hq
          rw [hq.1]
          exact ⟨_, _, rfl⟩
        | panic => simp at hq
        | diverge => simp at hq
      · simp [he] at hq
  cases op with
  | peek =>
    simp only [ROp.run, PeekReader.peek] at h
    split at h
    · simp at h
    · split at h
      · split at h
        · simp at h
        · rename_i e1 q hq
          simp only [Prod.mk.injEq, Out.err.injEq] at h
          obtain ⟨rfl, rfl⟩ := h
          exact take hq
        · simp at h
        · simp at h
      · simp at h
  | pop =>
    simp only [ROp.run, PeekReader.pop] at h
    split at h
    · simp at h
    · split at h
      · split at h
        · simp at h
        · rename_i e1 q hq
          simp only [Prod.mk.injEq, Out.err.injEq] at h
          obtain ⟨rfl, rfl⟩ := h
          exact take hq
        · simp at h
        · simp at h
      · simp at h

/-- **C55**: the first error a reader of a text reports is one of the scanner, and names what is wrong with the text: after some of its
tokens, a key has no value, or the characters that are next are wrong in the way the error says. -/
theorem C55_reader {ops : List ROp} {op : ROp} {e : ReaderError} (h : AllOk (history opts text ops))
    (he : (op.run (borrowDrive opts (utf8 text)) (readerAfter opts text ops)).1 = .err e) :
    ∃ e' l s s', e = .Scanner e' ∧ After { opts with extendable := false } (utf8 text) l s ∧ (∃ q, utf8 text = q ++ s.buf) ∧
      Scan.scanNextToken { opts with extendable := false } s = (.err e', s') ∧
      (e' = .MissingValue ∧ KeyDue s ∨
      ∃ n p r, s.buf = p ++ r ∧ Skips true s.buf n r ∧
        Wrong opts.lazy s.sc.context.flow (s'.sc.context.level.getD 0) (posAfter s.sc.stats p).column (Place l n) e' r) := by
  obtain ⟨b, sc', hd⟩ := run_err (Prod.ext he rfl)
  obtain ⟨e', s, s', rfl, hL, hdone, hs⟩ := (drive_live (reader_live h) hd).2 e rfl
  have hv : validUtf8 (utf8 text) = true := (validUtf8_iff _).2 ⟨text, rfl⟩
  obtain ⟨l, hl⟩ := hL.2.resolve_left fun h0 => by
    unfold Scan.scanNextToken at hs
    have : (Scan.get >>= fun s : SS => if (s.sc.state == .Start) = true then Scan.fetchStreamStart else do Scan.prepare { opts with extendable := false }; Scan.fetchNext { opts with extendable := false }) s =
      Scan.fetchStreamStart s := by
      show (if (s.sc.state == .Start) = true then Scan.fetchStreamStart else _) s = _
      rw [h0]; rfl
    rw [this] at hs
    cases hs
  have hst : s.sc.state = .Stream := by
    have := after_started hl
    cases hss : s.sc.state with
    | Start => exact absurd hss this
    | Stream => rfl
    | Done => exact absurd hss hdone
  refine ⟨e', l, s, s', rfl, hl, (reach_tailOf hv hL.1).suffix, hs, ?_⟩
  rcases C55_means hl hst hs with ⟨-, h⟩ | h
  · cases h
  · exact h

/-- The text `a: b`, and then a reserved character. -/
example : AllOk (history {} "a: b\n@".toList (List.replicate 6 .pop)) ∧
    (ROp.pop.run (borrowDrive {} (utf8 "a: b\n@".toList)) (readerAfter {} "a: b\n@".toList (List.replicate 6 .pop))).1 = .err (.Scanner .UnknownDelimiter) :=
  ⟨allOk_of_decide (by decide +kernel), by decide +kernel⟩

/-- **C55**: some errors are never reported. -/
theorem C55_never {ops : List ROp} {op : ROp} {e : ScanError} (h : AllOk (history opts text ops))
    (he : (op.run (borrowDrive opts (utf8 text)) (readerAfter opts text ops)).1 = .err (.Scanner e)) :
    e ≠ .Extend ∧ e ≠ .MissingMajor ∧ e ≠ .MissingMinor ∧ e ≠ .InvalidPlainScalar := by
  obtain ⟨e', l, s, s', h1, -, -, -, h5⟩ := C55_reader h he
  cases h1
  have uri : ∀ {v : Bool} {s : Str}, UriFault v e s → e ≠ .Extend ∧ e ≠ .MissingMajor ∧ e ≠ .MissingMinor ∧ e ≠ .InvalidPlainScalar := by
    intro v s h
    cases h <;> simp
  rcases h5 with ⟨rfl, -⟩ | ⟨n, p, r, -, -, hw⟩
  · simp
  · cases hw with
    | reserved | entry | key | value | unbalanced | unclosed => simp
    | anchor h => cases h <;> simp
    | tag h =>
      cases h with
      | verbatim h => exact uri h
      | verbatimEnds | verbatimClose => simp
      | suffix _ _ h => exact uri h
    | directive _ h =>
      cases h with
      | uri _ _ _ _ h => exact uri h
      | _ => simp
    | quoted _ h => cases h <;> simp
    | block _ h => cases h <;> simp

end Yary
