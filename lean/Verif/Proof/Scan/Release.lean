import Verif.Model.Release
import Verif.Proof.Scan.Arith

/-! # Builds with and without overflow checks

No subtraction of the scanner underflows, so that it does the same with and without the checks. -/

namespace Yary.Release

variable {u : Nat → Nat → Nat}

theorem less_eq {a b : Nat} (h : b ≤ a) : less u a b = a - b := if_pos h

theorem truncEnd_eq {s : Str} {n : Nat} (h : n ≤ s.length) : Yary.truncEnd s n = .ok (truncEnd u s n) := by
  unfold Yary.truncEnd truncEnd
  rw [if_pos h, less_eq h]

theorem adv_length {c c' : Cur} {n : Nat} (h : c.adv n = .ok c') : c'.buf.length = c.buf.length - n := by
  unfold Cur.adv at h
  split at h <;> cases h
  simp

theorem line_length {c c' : Cur} (h : c.line = .ok c') : c'.buf.length ≤ c.buf.length := by
  unfold Cur.line at h
  split at h <;> cases h
  simp

theorem blank_length {s : Str} (h : isBlank s = true) : 1 ≤ s.length := by
  cases s with
  | nil => simp [isBlank, startsWith] at h
  | cons b t => simp

theorem slice_length {s r : Str} {a b : Nat} (h : slice (ε := ScanError) s a b = .ok r) (hb : b ≤ s.length) : r.length = b - a := by
  unfold slice at h
  split at h
  · cases h
    simp
    omega
  · cases h

/-! ## Quoted scalars -/

/-- While the contents are borrowed, the opening quote and the blanks counted were read; and else the blanks are copied. -/
structure Room (base : Str) (st : FlowSt) : Prop where
  borrow : st.canBorrow = true → st.cur.buf.length + 1 + st.whitespace ≤ base.length
  copy : st.canBorrow = false → st.whitespace ≤ st.scratch.length

theorem Room.noBorrow {base : Str} {st st' : FlowSt} (h : Room base st) (hn : st.noBorrow base = .ok st') :
    st'.canBorrow = false ∧ st'.whitespace ≤ st'.scratch.length ∧ st'.cur = st.cur ∧ st'.lines = st.lines := by
  unfold FlowSt.noBorrow at hn
  split at hn
  · rename_i hb
    obtain ⟨s, hs, hn⟩ := Out.bind_eq_ok.1 hn
    cases hn
    have := slice_length hs (by omega)
    have := h.borrow hb
    refine ⟨rfl, ?_, rfl, rfl⟩
    simp only [List.length_append]
    omega
  · rename_i hb
    cases hn
    have hb : st.canBorrow = false := by simpa using hb
    exact ⟨hb, h.copy hb, rfl, rfl⟩

/-- Only the opening quote, for the loop over words. -/
def Room0 (base : Str) (st : FlowSt) : Prop := st.canBorrow = true → st.cur.buf.length + 1 ≤ base.length

theorem noBorrow_false {base : Str} {st st' : FlowSt} (hn : st.noBorrow base = .ok st') : st'.canBorrow = false := by
  unfold FlowSt.noBorrow at hn
  split at hn
  · obtain ⟨s, hs, hn⟩ := Out.bind_eq_ok.1 hn
    cases hn; rfl
  · rename_i hb
    cases hn
    simpa using hb

theorem flowWord_room {opts : SFlags} {base : Str} {single : Bool} : ∀ {fuel : Nat} {b : Bool} {st st' : FlowSt}, Room0 base st →
    flowWord opts base single fuel st = .ok (b, st') → Room0 base st'
  | 0, _, _, _, _, h => by cases h
  | fuel + 1, b, st, st', hr, h => by
    unfold flowWord at h
    split at h
    · cases h; exact hr
    obtain ⟨_, -, h⟩ := Out.bind_eq_ok.1 h
    split at h
    · obtain ⟨s1, h1, h⟩ := Out.bind_eq_ok.1 h
      obtain ⟨c1, h2, h⟩ := Out.bind_eq_ok.1 h
      refine flowWord_room ?_ h
      intro hb
      simp only [noBorrow_false h1, Bool.false_eq_true] at hb
    split at h
    · cases h; exact hr
    split at h
    · obtain ⟨s1, h1, h⟩ := Out.bind_eq_ok.1 h
      obtain ⟨c1, h2, h⟩ := Out.bind_eq_ok.1 h
      refine flowWord_room ?_ h
      intro hb
      simp only [noBorrow_false h1, Bool.false_eq_true] at hb
    split at h
    · obtain ⟨s1, h1, h⟩ := Out.bind_eq_ok.1 h
      obtain ⟨⟨w, n⟩, h2, h⟩ := Out.bind_eq_ok.1 h
      obtain ⟨c1, h3, h⟩ := Out.bind_eq_ok.1 h
      refine flowWord_room ?_ h
      intro hb
      simp only [noBorrow_false h1, Bool.false_eq_true] at hb
    · obtain ⟨s1, h1, h⟩ := Out.bind_eq_ok.1 h
      refine flowWord_room ?_ h
      unfold FlowSt.push at h1
      obtain ⟨c1, h2, h1⟩ := Out.bind_eq_ok.1 h1
      cases h1
      intro hb
      have := hr hb
      have := adv_length h2
      simp only
      omega

theorem flowSpace_room {opts : SFlags} {base : Str} : ∀ {fuel : Nat} {st st' : FlowSt}, Room base st →
    (0 < st.lines → st.canBorrow = false) → flowSpace opts base fuel st = .ok st' →
    Room base st' ∧ (0 < st'.lines → st'.canBorrow = false)
  | 0, _, _, _, _, h => by cases h
  | fuel + 1, st, st', hr, hl, h => by
    unfold flowSpace at h
    obtain ⟨_, -, h⟩ := Out.bind_eq_ok.1 h
    split at h
    · rename_i hbl
      have hbl := blank_length hbl
      obtain ⟨s1, h1, h⟩ := Out.bind_eq_ok.1 h
      unfold FlowSt.push at h1
      obtain ⟨c1, h2, h1⟩ := Out.bind_eq_ok.1 h1
      cases h1
      have h2 := adv_length h2
      refine flowSpace_room ⟨fun hb => ?_, fun hb => ?_⟩ (by exact hl) h
      · have := hr.borrow hb
        simp only
        omega
      · have := hr.copy hb
        simp only at hb ⊢
        simp only [hb, Bool.false_eq_true, ↓reduceIte, List.length_append, List.length_take]
        omega
    split at h
    · obtain ⟨s1, h1, h⟩ := Out.bind_eq_ok.1 h
      obtain ⟨c1, h2, h⟩ := Out.bind_eq_ok.1 h
      obtain ⟨k1, k2, k3, k4⟩ := hr.noBorrow h1
      refine flowSpace_room ?_ ?_ h
      · split
        · exact ⟨fun hb => by simp [k1] at hb, fun _ => by simp⟩
        · exact ⟨fun hb => by simp [k1] at hb, fun _ => k2⟩
      · intro _
        split <;> exact k1
    · cases h; exact ⟨hr, hl⟩

theorem flowJoin_eq {base : Str} {st : FlowSt} (hr : Room base st) (hl : 0 < st.lines → st.canBorrow = false) :
    flowJoin u base st = Yary.flowJoin base st ∧ ∀ st', Yary.flowJoin base st = .ok st' → Room0 base st' := by
  unfold flowJoin Yary.flowJoin
  match st.lines with
  | 0 =>
    refine ⟨rfl, fun st' h => ?_⟩
    cases h
    intro hb
    have := hr.borrow hb
    omega
  | 1 | n + 2 =>
    simp only
    refine ⟨Out.bind_congr_ok fun s1 h1 => ?_, fun st' h => ?_⟩
    · rw [truncEnd_eq (u := u) (hr.noBorrow h1).2.1, Out.ok_bind]
    · obtain ⟨s1, h1, h⟩ := Out.bind_eq_ok.1 h
      obtain ⟨s2, h2, h⟩ := Out.bind_eq_ok.1 h
      cases h
      intro hb
      simp only [noBorrow_false h1, Bool.false_eq_true] at hb

theorem flowLoop_eq {opts : SFlags} {base : Str} {single : Bool} : ∀ {fuel : Nat} {st : FlowSt}, Room0 base st →
    flowLoop u opts base single fuel st = Yary.flowLoop opts base single fuel st
  | 0, _, _ => rfl
  | fuel + 1, st, hr => by
    unfold flowLoop Yary.flowLoop
    refine Out.bind_congr_ok fun _ _ => ?_
    split
    · rfl
    split
    · rfl
    refine Out.bind_congr_ok fun _ _ => ?_
    refine Out.bind_congr_ok fun ⟨b, s1⟩ h1 => ?_
    have r1 := flowWord_room (st := { st with escapedBreak := none }) hr h1
    simp only
    split
    · rfl
    refine Out.bind_congr_ok fun s2 h2 => ?_
    obtain ⟨r2, l2⟩ := flowSpace_room (st := { s1 with whitespace := 0, lines := 0 }) ⟨r1, fun _ => by simp⟩ (fun h => by simp at h) h2
    obtain ⟨e, r3⟩ := flowJoin_eq (u := u) r2 l2
    rw [e]
    refine Out.bind_congr_ok fun s3 h3 => ?_
    exact flowLoop_eq (r3 _ h3)

theorem scanFlowEager_eq {opts : SFlags} {single : Bool} {c : Cur} : scanFlowEager u opts single c = Yary.scanFlowEager opts single c := by
  unfold scanFlowEager Yary.scanFlowEager
  refine Out.bind_congr_ok fun _ _ => ?_
  refine Out.bind_congr_ok fun c1 h1 => ?_
  rw [flowLoop_eq]
  intro _
  have hb : isBoundary c.buf 1 = true := by
    unfold Cur.adv at h1
    split at h1
    · assumption
    · cases h1
  have := adv_length h1
  cases hc : c.buf with
  | nil => rw [hc] at hb; simp [isBoundary] at hb
  | cons b t => rw [hc] at this; simp at this ⊢; omega

/-! ## Plain scalars -/

/-- While the contents are borrowed, the blanks counted were read; and else the blanks and line breaks are copied. -/
structure PRoom (base : Str) (st : PlainSt) : Prop where
  borrow : st.canBorrow = true → st.cur.buf.length + st.whitespace ≤ base.length ∧ st.lines = 0
  copy : st.canBorrow = false → st.whitespace ≤ st.scratch.length

theorem PRoom.noBorrow {base : Str} {st st' : PlainSt} (h : PRoom base st) (hn : st.noBorrow base = .ok st') :
    st'.canBorrow = false ∧ st'.whitespace ≤ st'.scratch.length := by
  unfold PlainSt.noBorrow at hn
  split at hn
  · rename_i hb
    obtain ⟨s, hs, hn⟩ := Out.bind_eq_ok.1 hn
    cases hn
    have := slice_length hs (by omega)
    have := h.borrow hb
    refine ⟨rfl, ?_⟩
    simp only [List.length_append]
    omega
  · rename_i hb
    cases hn
    have hb : st.canBorrow = false := by simpa using hb
    exact ⟨hb, h.copy hb⟩

theorem plainPush {st st' : PlainSt} (h : st.push = .ok st') : st'.canBorrow = st.canBorrow ∧ st'.whitespace = st.whitespace ∧
    st'.lines = st.lines ∧ st'.cur.buf.length = st.cur.buf.length - 1 ∧
    (st.canBorrow = false → st'.scratch.length = st.scratch.length + min 1 st.cur.buf.length) := by
  unfold PlainSt.push at h
  obtain ⟨c1, h2, h⟩ := Out.bind_eq_ok.1 h
  cases h
  have h2 := adv_length h2
  exact ⟨rfl, rfl, rfl, h2, fun hb => by simp [hb]⟩

theorem plainWord_room {opts : SFlags} {base : Str} {block : Bool} : ∀ {fuel : Nat} {st st' : PlainSt}, PRoom base st →
    plainWord opts block fuel st = .ok st' → PRoom base st'
  | 0, _, _, _, h => by cases h
  | fuel + 1, st, st', hr, h => by
    unfold plainWord at h
    split at h
    · cases h; exact hr
    obtain ⟨_, -, h⟩ := Out.bind_eq_ok.1 h
    split at h
    · cases h; exact hr
    obtain ⟨s1, h1, h⟩ := Out.bind_eq_ok.1 h
    obtain ⟨k1, k2, k3, k4, k5⟩ := plainPush h1
    refine plainWord_room ⟨fun hb => ?_, fun hb => ?_⟩ h
    · have := hr.borrow (k1 ▸ hb)
      omega
    · have := hr.copy (k1 ▸ hb)
      have := k5 (k1 ▸ hb)
      omega

theorem plainSpace_room {opts : SFlags} {base : Str} : ∀ {fuel : Nat} {st st' : PlainSt}, PRoom base st →
    plainSpace opts base fuel st = .ok st' → PRoom base st'
  | 0, _, _, _, h => by cases h
  | fuel + 1, st, st', hr, h => by
    unfold plainSpace at h
    obtain ⟨_, -, h⟩ := Out.bind_eq_ok.1 h
    split at h
    · rename_i hbl
      have hbl := blank_length hbl
      obtain ⟨s1, h1, h⟩ := Out.bind_eq_ok.1 h
      obtain ⟨k1, k2, k3, k4, k5⟩ := plainPush h1
      refine plainSpace_room ⟨fun hb => ?_, fun hb => ?_⟩ h
      · have := hr.borrow (k1 ▸ hb)
        simp only
        omega
      · have := hr.copy (k1 ▸ hb)
        have := k5 (k1 ▸ hb)
        simp only
        omega
    split at h
    · obtain ⟨s1, h1, h⟩ := Out.bind_eq_ok.1 h
      obtain ⟨c1, h2, h⟩ := Out.bind_eq_ok.1 h
      obtain ⟨k1, k2⟩ := hr.noBorrow h1
      refine plainSpace_room ⟨fun hb => ?_, fun _ => ?_⟩ h
      · simp [k1] at hb
      · exact k2
    · cases h; exact hr

/-- After joining, what is to be dropped at the end is copied, too. -/
structure PEnd (base : Str) (st : PlainSt) : Prop where
  borrow : st.canBorrow = true → st.cur.buf.length ≤ base.length ∧ st.lines = 0
  copy : st.canBorrow = false → st.whitespace + st.lines ≤ st.scratch.length

theorem plainJoin_eq {base : Str} {st : PlainSt} (hr : PRoom base st) : Yary.plainJoin st = .ok (plainJoin u st) ∧
    PEnd base (plainJoin u st) := by
  have hf : st.lines ≠ 0 → st.canBorrow = false ∧ st.whitespace ≤ st.scratch.length := by
    intro hl
    have hb : st.canBorrow = false := by
      cases hb : st.canBorrow with
      | false => rfl
      | true => exact absurd (hr.borrow hb).2 hl
    exact ⟨hb, hr.copy hb⟩
  obtain ⟨cur, ss, scr, cb, od, ws, ln⟩ := st
  unfold Yary.plainJoin plainJoin
  rcases ln with _ | _ | n
  · refine ⟨rfl, fun hb => ?_, fun hb => ?_⟩
    · have := (hr.borrow hb).1
      simp only at this ⊢
      exact ⟨by omega, trivial⟩
    · have := hr.copy hb
      simp only at this ⊢
      omega
  all_goals
    obtain ⟨hb, hw⟩ := hf (by simp)
    simp only at hb hw ⊢
    rw [truncEnd_eq (u := u) hw, Out.ok_bind]
    refine ⟨rfl, fun h => by simp [hb] at h, fun _ => ?_⟩
    simp only [List.length_append, List.length_replicate, List.length_cons, List.length_nil]
    omega

theorem plainLoop_eq {opts : SFlags} {base : Str} {indent : Nat} {block : Bool} : ∀ {fuel : Nat} {st : PlainSt}, PEnd base st →
    plainLoop u opts base indent block fuel st = Yary.plainLoop opts base indent block fuel st ∧
    ∀ st', Yary.plainLoop opts base indent block fuel st = .ok st' → PEnd base st'
  | 0, _, _ => ⟨rfl, fun _ h => by cases h⟩
  | fuel + 1, st, hr => by
    have hr0 : PRoom base { st with whitespace := 0, lines := 0 } :=
      ⟨fun hb => ⟨(hr.borrow hb).1, rfl⟩, fun _ => by simp⟩
    unfold plainLoop Yary.plainLoop
    constructor
    · refine Out.bind_congr_ok fun _ _ => ?_
      split
      · rfl
      split
      · rfl
      split
      · rfl
      split
      · rfl
      refine Out.bind_congr_ok fun s1 h1 => ?_
      refine Out.bind_congr_ok fun s2 h2 => ?_
      have r1 := plainWord_room hr0 h1
      have r2 := plainSpace_room (st := { s1 with scalarStats := s1.cur.stats }) ⟨r1.borrow, r1.copy⟩ h2
      obtain ⟨e, r3⟩ := plainJoin_eq (u := u) (st := { s2 with outdent := block && s2.cur.stats.column < indent }) ⟨r2.borrow, r2.copy⟩
      rw [e, Out.ok_bind]
      exact (plainLoop_eq r3).1
    · intro st' h
      obtain ⟨_, -, h⟩ := Out.bind_eq_ok.1 h
      split at h
      · cases h; exact hr
      split at h
      · cases h; exact hr
      split at h
      · cases h; exact hr
      split at h
      · cases h; exact hr
      obtain ⟨s1, h1, h⟩ := Out.bind_eq_ok.1 h
      obtain ⟨s2, h2, h⟩ := Out.bind_eq_ok.1 h
      have r1 := plainWord_room hr0 h1
      have r2 := plainSpace_room (st := { s1 with scalarStats := s1.cur.stats }) ⟨r1.borrow, r1.copy⟩ h2
      obtain ⟨e, r3⟩ := plainJoin_eq (u := u) (st := { s2 with outdent := block && s2.cur.stats.column < indent }) ⟨r2.borrow, r2.copy⟩
      rw [e, Out.ok_bind] at h
      exact (plainLoop_eq r3).2 _ h

theorem scanPlainEager_eq {opts : SFlags} {indent : Nat} {block : Bool} {c : Cur} :
    scanPlainEager u opts indent block c = Yary.scanPlainEager opts indent block c := by
  unfold scanPlainEager Yary.scanPlainEager
  refine Out.bind_congr_ok fun _ _ => ?_
  split
  · rfl
  obtain ⟨e, r⟩ := plainLoop_eq (u := u) (opts := opts) (indent := indent) (block := block) (fuel := c.buf.length + 1)
    (base := c.buf) (st := { cur := c, scalarStats := c.stats }) ⟨fun _ => ⟨Nat.le_refl _, rfl⟩, fun _ => by simp⟩
  rw [e]
  refine Out.bind_congr_ok fun st h => ?_
  have hle := plainLoop_read h (Nat.le_refl _) (Nat.le_refl _)
  rw [minus_ok hle, Out.ok_bind, less_eq hle]
  have es : plainSlice u c.buf st (st.scalarStats.read - c.stats.read) = Yary.plainSlice c.buf st (st.scalarStats.read - c.stats.read) := by
    unfold plainSlice Yary.plainSlice
    split
    · rfl
    · rename_i hb
      rw [truncEnd_eq (u := u) ((r _ h).copy (by simpa using hb)), Out.ok_bind]
  simp only [es]

theorem scanPlainLazy_eq {opts : SFlags} {indent : Nat} {block : Bool} {c : Cur} :
    scanPlainLazy u opts indent block c = Yary.scanPlainLazy opts indent block c := by
  unfold scanPlainLazy Yary.scanPlainLazy
  refine Out.bind_congr_ok fun st h => ?_
  obtain ⟨a, b⟩ := plainLazyLoop_read h (Nat.le_refl _) (Nat.le_refl _)
  rw [minus_ok b, Out.ok_bind, minus_ok a, Out.ok_bind, less_eq a, less_eq b]

/-! ## Block scalars -/

theorem blockLines_eq {opts : SFlags} {base : Str} {read : Nat} {fold : Bool} {indent : Nat} : ∀ {fuel : Nat}
    {st : BlockSt}, read ≤ st.cur.stats.read →
    blockLines u opts base read fold indent fuel st = blockLoop opts base read fold indent fuel st
  | 0, _, _ => rfl
  | fuel + 1, st, hr => by
    unfold blockLines blockLoop
    split
    · refine Out.bind_congr_ok fun st1 h1 => ?_
      have hr1 : read ≤ st1.cur.stats.read := by rw [trapdoor_keeps h1]; exact hr
      simp only [less_eq hr1]
      refine Out.bind_congr_ok fun _ _ => ?_
      refine Out.bind_congr_ok fun c1 h2 => ?_
      have hr2 : read ≤ c1.stats.read := Nat.le_trans hr1 (toBreak_read h2)
      simp only [less_eq hr2]
      refine Out.bind_congr_ok fun ⟨c2, l2⟩ h3 => ?_
      refine Out.bind_congr_ok fun ⟨c3, l3⟩ h4 => ?_
      have hr3 : read ≤ c3.stats.read := Nat.le_trans hr2 (Nat.le_trans (eatBreak_read h3) (scanIndent_read h4))
      exact blockLines_eq hr3
    · rfl

theorem scanBlockEager_eq {opts : SFlags} {b : Nat} {fold : Bool} {c : Cur} :
    scanBlockEager u opts b fold c = Yary.scanBlockEager opts b fold c := by
  rw [Yary.scanBlockEager_eq]
  unfold scanBlockEager
  refine Out.bind_congr_ok fun ⟨k, e, c1⟩ h1 => ?_
  refine Out.bind_congr_ok fun d h2 => ?_
  have hr := Nat.le_trans (blockHeader_read h1) (blockIndent_read h2)
  simp only [less_eq hr]
  rw [blockLines_eq hr]

/-! ## Steps -/

theorem scanFlow_eq : scanFlow u = Yary.scanFlow := by
  funext opts single c
  unfold scanFlow Yary.scanFlow
  rw [scanFlowEager_eq]

theorem scanPlain_eq : scanPlain u = Yary.scanPlain := by
  funext opts indent block c
  unfold scanPlain Yary.scanPlain
  rw [scanPlainEager_eq, scanPlainLazy_eq]

theorem scanBlock_eq : scanBlock u = Yary.scanBlock := by
  funext opts b fold c
  unfold scanBlock Yary.scanBlock
  rw [scanBlockEager_eq]

theorem run_eq {opts : SFlags} {f : Scan.Fetch} : run u opts f = Scan.run opts f := by
  cases f with
  | quoted => simp only [run, fetchFlowScalar, scanFlow_eq]; rfl
  | plain => simp only [run, fetchPlainScalar, scanPlain_eq]; rfl
  | block fold => simp only [run, fetchBlockScalar, scanBlock_eq]; rfl
  | _ => rfl

theorem scanNextToken_eq : scanNextToken u = Scan.scanNextToken := by
  funext opts
  unfold scanNextToken fetchNext
  simp only [run_eq]
  rfl

theorem scanLoop_eq {opts : SFlags} {base : Str} : ∀ {fuel : Nat} {sc : Scanner} {out : List TokenEntry},
    scanLoop u opts base fuel sc out = Yary.scanLoop opts base fuel sc out
  | 0, _, _ => rfl
  | fuel + 1, sc, out => by
    unfold scanLoop Yary.scanLoop
    rw [scanNextToken_eq]
    split
    · split
      · split <;> simp_all [scanLoop_eq]
      · exact scanLoop_eq
    · rfl

end Yary.Release
