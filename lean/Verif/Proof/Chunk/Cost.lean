import Verif.Proof.Scan.Cost
import Verif.Proof.Chunk.Retry
import Verif.Proof.Chunk.Unread

/-! # The tokens of a source read in chunks -/

namespace Yary.Chunk

open Yary.Cost Scan Spec

variable {opts : SFlags} {size : Nat → Nat → Nat}

/-- A step that asks for more text has pushed nothing. -/
theorem ext_step {o : SFlags} {s s1 : SS} (hv : validUtf8 s.buf = true) (hd : s.sc.state ≠ .Done) (h : Scan.scanNextToken o s = (.err .Extend, s1)) :
    owed s1 ≤ owed s ∧ s1.buf.length ≤ s.buf.length ∧ s1.sc.state = s.sc.state := by
  unfold Scan.scanNextToken at h
  obtain ⟨_, _, hg, h⟩ := Calm.get.ext h
  obtain ⟨rfl, rfl⟩ := get_ok hg
  by_cases hst : (s.sc.state == .Start) = true
  · rw [if_pos hst] at h
    exact absurd h Calm.fetchStreamStart.not
  rw [if_neg hst] at h
  rcases ext_bind h with h | ⟨_, s2, h2, h⟩
  · unfold Scan.prepare at h
    have h := ext_calm (fun _ => by have := Calm.expireKey; calm) h
    unfold eatWhitespace at h
    rw [sub_ext (ext_calm (fun _ => by calm) h)]
    exact ⟨Nat.le_refl _, Nat.le_refl _, rfl⟩
  · have hr := ((closed_rest s.buf s.sc.offset).prepare (P := True) (opts := o) (.inl trivial)
      ⟨hv, ⟨[], rfl⟩, rfl, hd⟩).of_ok h2
    have hst2 : s2.sc.state = s.sc.state := hr.2.2.1
    have hlen : s2.buf.length ≤ s.buf.length := hr.2.1.length_le
    have hadd : owed s2 ≤ owed s + 0 := Yary.Cost.Adds.prepare _ _ _ h2
    unfold fetchNext at h
    obtain ⟨_, _, hg, h⟩ := Calm.get.ext h
    obtain ⟨rfl, rfl⟩ := get_ok hg
    have hsame : s1 = s2 ∨ s1 = { s2 with sc := { s2.sc with key := none, simpleKeyAllowed := true } } := by
      by_cases hb : (s2.buf.isEmpty || s2.sc.state == .Done) = true
      · rw [if_pos hb] at h
        exact absurd h Calm.fetchStreamEnd.not
      rw [if_neg hb] at h
      rcases ext_bind h with h | ⟨_, s3, h3, h⟩
      · exact .inl (congrArg Prod.snd h).symm
      · have h3' : cache o 4 s2.buf = .ok () ∧ s2 = s3 := by
          simp only [SO.lift, Prod.mk.injEq] at h3
          exact h3
        obtain ⟨hc, rfl⟩ := h3'
        rcases run_ext h with h | ⟨-, -, h⟩
        · exact .inl h
        · exact .inr h
    rcases hsame with rfl | rfl
    · exact ⟨hadd, hlen, hst2⟩
    · refine ⟨?_, hlen, hst2⟩
      unfold owed at hadd ⊢
      simp only [Option.isSome_none, Bool.false_eq_true, if_false]
      omega

/-- So does the loop not push more than is paid for when it asks for more text. -/
theorem ext_loop {base : Str} (hv : validUtf8 base = true) : ∀ fuel (sc sc' : Scanner) (out out' : List TokenEntry),
    scanLoop opts base fuel sc out = (.err .Extend, sc', out') → out'.length + debt base sc' ≤ out.length + debt base sc := by
  intro fuel
  induction fuel with
  | zero => intro sc sc' out out' h; cases h
  | succ fuel ih =>
    intro sc sc' out out' h
    rw [scanLoop] at h
    split at h
    · next hgo =>
      have hd : sc.state ≠ .Done := by
        intro hd
        simp [hd] at hgo
      split at h
      · next hb =>
        have hvb := validUtf8_drop hv hb
        cases hs : Scan.scanNextToken opts ⟨sc, base.drop sc.offset, out⟩ with
        | mk o s =>
        rw [hs] at h
        have key : ∀ {s : SS}, s.buf.length ≤ (base.drop sc.offset).length →
            (base.drop (base.length - s.buf.length)).length = s.buf.length := by
          intro s hl
          rw [List.length_drop] at hl ⊢
          omega
        cases o with
        | ok u =>
          have h1 := ih _ _ _ _ h
          have h2 := step hvb hd hs
          have h4 := key (step_length hvb hd hs)
          unfold debt at h1 ⊢
          unfold owed at h2
          simp only at h1 h2
          rw [h4] at h1
          unfold due at h1 h2 ⊢
          simp only at h1 h2 ⊢
          omega
        | err e =>
          simp only at h
          split at h
          · next he =>
            subst he
            cases h
            obtain ⟨h2, h3, h5⟩ := ext_step hvb hd hs
            have h4 := key h3
            unfold debt
            unfold owed at h2
            simp only at h2 h3 h5
            rw [h4]
            unfold due
            simp only
            rw [h5]
            omega
          · cases h; contradiction
        | panic => cases h
        | diverge => cases h
      · exact ih _ _ _ _ h
    · cases h

/-- What a scanner owes on a chunk and on the rest of the source. -/
def sourceDebt (s : Owned × Scanner) : Nat := debt (s.1.head.drop s.2.offset ++ bytesOf s.1.source) { s.2 with offset := 0 }

theorem sourceDebt_eq (ow : Owned) (sc : Scanner) : sourceDebt (ow, sc) = debt ow.head sc + 3 * (bytesOf ow.source).length := by
  unfold sourceDebt debt due
  simp only [List.drop_zero, List.length_append]
  omega

/-- A call that succeeds pushes no more than that pays for, however often it has gone on to the next chunk. -/
theorem ownedLoop_pays : ∀ fuel (ow ow' : Owned) (sc sc' : Scanner) (out out' : List TokenEntry) (u : Unit), Sound ow sc →
    ownedLoop size opts fuel ow sc out = (.ok u, out', (ow', sc')) → out'.length + sourceDebt (ow', sc') ≤ out.length + sourceDebt (ow, sc) := by
  intro fuel
  induction fuel with
  | zero => intro ow ow' sc sc' out out' u _ h; cases h
  | succ fuel ih =>
    intro ow ow' sc sc' out out' u hS h
    rw [ownedLoop] at h
    split at h
    · next sc1 more hs =>
      cases h
      have := loop hS.valid _ _ _ _ _ hs
      rw [sourceDebt_eq, sourceDebt_eq, List.length_append]
      simp only [List.length_nil] at this
      omega
    · next sc1 more hs =>
      obtain ⟨h1, -, -, h2⟩ := scanTokens_sound hS hs (fun h => by cases h)
      have he := h2 rfl
      have hr := refresh_sound (size := size) h1 he
      have := ext_loop hS.valid _ _ _ _ _ hs
      split at h
      · next ow1 hr1 =>
        rw [hr1] at hr
        obtain ⟨h3, bytes, h4, h5, -⟩ := hr
        have h6 := ih _ _ _ _ _ _ _ h3 h
        rw [sourceDebt_eq] at h6 ⊢
        rw [sourceDebt_eq ow1, List.length_append] at h6
        rw [sourceDebt_eq ow, h5, List.length_append]
        have h7 : debt ow1.head { sc1 with offset := 0 } = debt ow.head sc1 + 3 * bytes.length := by
          unfold debt due
          rw [h4]
          simp only [List.drop_zero, List.length_append]
          omega
        simp only [List.length_nil] at this
        omega
      all_goals cases h
    all_goals cases h

end Yary.Chunk
