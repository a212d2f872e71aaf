import Verif.Proof.Moved.Afresh

/-! # The first token of a text that is not empty -/

namespace Yary.Moved

open Spec

variable {opts : SFlags}

/-- A step only adds tokens. -/
theorem step_adds {s s' : SS} (hs : Scan.scanNextToken opts s = (.ok (), s')) : ∃ l, s'.out = s.out ++ l := by
  have of : ∀ {a b : SS}, (∃ l, b.out = a.out ++ l ∧ ∀ e ∈ l, (fun _ => True) e) → ∃ l, b.out = a.out ++ l := fun ⟨l, h, _⟩ => ⟨l, h⟩
  by_cases hst : s.sc.state = .Start
  · unfold Scan.scanNextToken at hs
    obtain ⟨a, s0, h1, hs⟩ := bind_ok hs
    obtain ⟨rfl, rfl⟩ := get_ok h1
    simp only [hst, beq_self_eq_true, ↓reduceIte] at hs
    refine of (Adds.of_eq (S := fun _ => True) ?_ hs)
    unfold Scan.fetchStreamStart
    exact (Adds.upd _).bind fun _ => Adds.push fun r => trivial
  · obtain ⟨s1, h1, h2⟩ := step_cases_live hs hst
    obtain ⟨l, hl⟩ := of ((Adds.prepare (S := fun _ => True) fun _ => trivial).of_eq h1)
    rcases h2 with ⟨-, h2⟩ | ⟨-, h2⟩
    · obtain ⟨l', hl'⟩ := of (Adds.of_eq (S := fun _ => True) (by
        unfold Scan.fetchStreamEnd
        exact Adds.get.bind fun _ => (Adds.pure _).ite (((Adds.unroll (fun _ => trivial) _).bind fun _ => Adds.removeKey.bind fun _ =>
          (Adds.upd _).bind fun _ => Adds.push fun r => trivial).ite (Adds.pure _))) h2)
      exact ⟨l ++ l', by rw [hl', hl, List.append_assoc]⟩
    · obtain ⟨l', e, h3, -⟩ := run_puts (Closed.dispatch_starts s1.sc.context s1.sc.stats.column s1.buf) (fun h => Closed.dispatch_plain h _ rfl) h2
      exact ⟨l ++ l' ++ [e], by rw [h3, hl]; simp only [List.append_assoc]⟩

theorem loop_adds {base : Str} : ∀ (fuel : Nat) (sc sc' : Scanner) (out out' : List TokenEntry),
    scanLoop opts base fuel sc out = (.ok (), sc', out') → ∃ l, out' = out ++ l := by
  intro fuel
  induction fuel with
  | zero => intro sc sc' out out' h; cases h
  | succ fuel ih =>
    intro sc sc' out out' h
    rw [loop_turn] at h
    split at h
    · split at h
      · generalize hs : Scan.scanNextToken opts ⟨sc, base.drop sc.offset, out⟩ = x at h
        obtain ⟨o, s⟩ := x
        cases o with
        | ok u =>
          obtain ⟨l, hl⟩ := step_adds hs
          obtain ⟨l', hl'⟩ := ih _ _ _ _ h
          exact ⟨l ++ l', by rw [hl', hl, List.append_assoc]⟩
        | err e => simp only [endTurn] at h; split at h <;> cases h
        | panic => cases h
        | diverge => cases h
      · exact ih _ _ _ _ h
    · cases h
      exact ⟨[], by simp⟩

theorem running_begun {R : Str} (hv : validUtf8 R = true) : Running [] ⟨begun, R, []⟩ :=
  ⟨⟨hv, fun e he => (by cases he), fun k hk => (by cases hk)⟩, hv, fun e he => (by cases he)⟩

/-- There is a token that is not the end of the stream. -/
theorem drive_some {R rest : Str} {n : Nat} (hv : validUtf8 R = true) (hR : Skips true R n rest) (hr : rest ≠ []) {b : List TokenEntry} {sc : Scanner}
    (h : borrowDrive opts R begun = (.ok (), b, sc)) : ∃ x ∈ b, x.marker ≠ .StreamEnd := by
  unfold borrowDrive at h
  generalize hx : scanTokens { opts with extendable := false } R begun = x at h
  obtain ⟨o, sc1, out⟩ := x
  cases o with
  | ok u =>
    cases h
    change scanLoop { opts with extendable := false } R (R.length + 2 + 1) begun [] = _ at hx
    have hl : scanLoop { opts with extendable := false } R (R.length + 2 + 1) begun [] =
        endTurn { opts with extendable := false } R (R.length + 2) (Scan.scanNextToken { opts with extendable := false } ⟨begun, R, []⟩) := by
      rw [loop_turn]
      rfl
    rw [hl] at hx
    generalize hs : Scan.scanNextToken { opts with extendable := false } ⟨begun, R, []⟩ = y at hx
    obtain ⟨o, s⟩ := y
    cases o with
    | ok u =>
      obtain ⟨l, hl⟩ := loop_adds _ _ _ _ _ hx
      obtain ⟨s1, h1, h2⟩ := step_cases_live hs (by simp [begun])
      have hrun := running_begun hv
      obtain ⟨hI, -, hst, hF⟩ := ((closed_running []).prepare (P := True) (.inl trivial) hrun).of_ok h1
      have hbuf : s1.buf = rest := by
        change (Scan.eatWhitespace _ >>= fun _ => settle) _ = _ at h1
        obtain ⟨_, s0, h3, h4⟩ := bind_ok h1
        obtain ⟨c, h5, h6⟩ := eatWhitespace_ok h3
        obtain ⟨n', p, h7, -⟩ := C14_skips h5
        have h8 := (hR.unique h7).2
        have h9 : s1.buf = s0.buf := by
          unfold settle at h4
          obtain ⟨_, a1, g1, h4⟩ := bind_ok h4
          obtain ⟨_, a2, g2, h4⟩ := bind_ok h4
          obtain ⟨rfl, rfl⟩ := get_ok g2
          obtain ⟨_, a3, g3, h4⟩ := bind_ok h4
          have hk : s0.sc.key = none := by rw [h6]; rfl
          have e1 : a1 = s0 := by
            unfold Scan.expireKey at g1
            obtain ⟨_, a4, g4, g1⟩ := bind_ok g1
            obtain ⟨rfl, rfl⟩ := get_ok g4
            rw [hk] at g1
            cases g1
            rfl
          have e2 : a3.buf = a1.buf := by
            simp only [Scan.unrollIndent, SO.modify, Prod.mk.injEq, true_and] at g3
            rw [← g3]
          have e3 : s1.buf = a3.buf := by
            simp only [Scan.popZeroIndent, SO.modify, Prod.mk.injEq, true_and] at h4
            rw [← h4]
            split
            · rfl
            · split <;> rfl
          rw [e3, e2, e1]
        rw [h9, h6, h8]
      rcases h2 with ⟨h2, -⟩ | ⟨-, h2⟩
      · rcases h2 with h2 | h2
        · rw [hbuf] at h2; exact absurd h2 hr
        · rw [hst] at h2; cases h2
      · obtain ⟨l', e, h3, -⟩ := run_puts (Closed.dispatch_starts s1.sc.context s1.sc.stats.column s1.buf) (fun h => Closed.dispatch_plain h _ rfl) h2
        have hw := ((closed_running []).run (P := True) (.inl trivial) hI hF).of_ok h2
        have he : e ∈ s.out := by rw [h3]; simp
        exact ⟨e, by rw [hl]; exact List.mem_append_left _ he, hw.inv.2.2 e (by simpa using he)⟩
    | err e => simp only [endTurn] at hx; split at hx <;> cases hx
    | panic => cases hx
    | diverge => cases hx
  | err e => cases h
  | panic => cases h
  | diverge => cases h

/-- The first token of a text is not its end. -/
theorem fresh_peek {R rest : Str} {n i : Nat} (hv : validUtf8 R = true) (hR : Skips true R n rest) (hr : rest ≠ []) {e : TokenEntry} {q : PeekReader Scanner}
    (h : PeekReader.peek (borrowDrive opts R) ⟨none, ⟨begun, ⟨[], i⟩, false⟩⟩ = (.ok (some e), q)) : e.marker ≠ .StreamEnd := by
  have hrep : (⟨[], i⟩ : Queue TokenEntry).Rep [] := ⟨[], by simp⟩
  obtain ⟨h1, -, ⟨-, h2, -⟩ | ⟨-, b, h2, h3, -⟩⟩ := peek_waits ⟨[], hrep⟩ h
  · have h3 : waiting q = [] := by rw [h2]; rfl
    simp [waiting, h1] at h3
  · obtain ⟨x, hx, hm⟩ := drive_some hv hR hr h2
    have hmem : e ∈ deliver b := by rw [← h3, waiting, h1]; simp
    have hkeep := (borrow_keeps (P := True) (I := Running) (G := Ended) closed_running static_running running_next running_last (.inl trivial) hv (D := [])
      ⟨by simp [begun, isBoundary], .inl ⟨by simp [begun], by simpa [begun] using running_begun hv⟩⟩ h2).2.2 (by simp)
    obtain ⟨-, ⟨-, hR⟩ | ⟨-, l, z, h4, h5, h6⟩⟩ := hkeep
    · exact hR.2.2 e (by simpa using hmem)
    · rw [List.nil_append] at h4
      intro he
      have hd : deliver b = e :: q.reader.queue.intoSortedVec := by rw [← h3, waiting, h1]; rfl
      cases l with
      | nil =>
        have : x ∈ deliver b := mem_deliver.2 hx
        rw [h4] at this
        simp at this
        subst this
        exact hm h5
      | cons y l =>
        rw [hd] at h4
        simp only [List.cons_append, List.cons.injEq] at h4
        obtain ⟨rfl, -⟩ := h4
        exact h6 e (.head _) he

end Yary.Moved
