import Verif.Model.Scan.Scanner

/-! # Subtractions of what was read

The scanners of scalars subtract the number of bytes read at the start of the scalar from the number read later. The
model checks these subtractions; here it is shown that none of them underflows, so that the scanners are the same as
without the checks. -/

namespace Yary

/-- The main loop of block scalars without the checks of `blockLines`. -/
def blockLoop (opts : SFlags) (base : Str) (read : Nat) (fold : Bool) (indent : Nat) : Nat →
    BlockSt → Out ScanError BlockSt
  | 0, _ => .diverge
  | fuel + 1, st =>
    if st.cur.stats.column = indent && !st.cur.buf.isEmpty then do
      let st ← st.trapdoor base
      let scratch := st.scratch ++ blockJoin fold st.lines
      let start := if st.canBorrow then (if st.start = 0 then st.cur.stats.read - read else st.start)
        else 0
      cache opts 1 st.cur.buf
      let c ← toBreak opts (base.length + 1) st.cur
      let scratch := if st.canBorrow then scratch
        else scratch ++ st.cur.buf.take (st.cur.buf.length - c.buf.length)
      let stop := if st.canBorrow then c.stats.read - read else scratch.length
      let (c, lines) ← eatBreak opts c 0
      let (c, lines) ← scanIndent opts indent c lines
      blockLoop opts base read fold indent fuel
        { cur := c, scratch := scratch, canBorrow := st.canBorrow, start := start, stop := stop,
          lines := lines }
    else .ok st

theorem minus_ok {a b : Nat} (h : b ≤ a) : minus a b = .ok (a - b) := if_pos h

theorem Out.bind_congr_ok {α β ε : Type} {x : Out ε α} {f g : α → Out ε β} (h : ∀ a, x = .ok a → f a = g a) :
    (x >>= f) = (x >>= g) := by
  cases x with
  | ok a => exact h a rfl
  | _ => rfl

theorem adv_read {c c' : Cur} {n : Nat} (h : c.adv n = .ok c') : c.stats.read ≤ c'.stats.read := by
  unfold Cur.adv at h
  split at h <;> cases h
  simp [MStats.update]

theorem line_read {c c' : Cur} (h : c.line = .ok c') : c.stats.read ≤ c'.stats.read := by
  unfold Cur.line at h
  split at h <;> cases h
  simp [MStats.update]

theorem toBreak_read {opts : SFlags} : ∀ {fuel : Nat} {c c' : Cur}, toBreak opts fuel c = .ok c' →
    c.stats.read ≤ c'.stats.read
  | 0, _, _, h => by cases h
  | fuel + 1, c, c', h => by
    unfold toBreak at h
    split at h
    · cases h; exact Nat.le_refl _
    obtain ⟨_, -, h⟩ := Out.bind_eq_ok.1 h
    obtain ⟨c1, h1, h⟩ := Out.bind_eq_ok.1 h
    exact Nat.le_trans (adv_read h1) (toBreak_read h)

theorem skipBlanksLoop_read {opts : SFlags} : ∀ {fuel : Nat} {c c' : Cur}, skipBlanksLoop opts fuel c = .ok c' →
    c.stats.read ≤ c'.stats.read
  | 0, _, _, h => by cases h
  | fuel + 1, c, c', h => by
    unfold skipBlanksLoop at h
    split at h
    · obtain ⟨_, -, h⟩ := Out.bind_eq_ok.1 h
      obtain ⟨c1, h1, h⟩ := Out.bind_eq_ok.1 h
      exact Nat.le_trans (adv_read h1) (skipBlanksLoop_read h)
    · cases h; exact Nat.le_refl _

theorem skipBlanks_read {opts : SFlags} {c c' : Cur} (h : skipBlanks opts c = .ok c') :
    c.stats.read ≤ c'.stats.read := by
  unfold skipBlanks at h
  obtain ⟨_, -, h⟩ := Out.bind_eq_ok.1 h
  obtain ⟨c1, h1, h⟩ := Out.bind_eq_ok.1 h
  have := skipBlanksLoop_read h1
  split at h
  · exact Nat.le_trans this (toBreak_read h)
  · cases h; exact this

theorem scanHeaders_read {opts : SFlags} {c c' : Cur} {k : ChompStyle} {n : Option Nat}
    (h : scanHeaders opts c = .ok (k, n, c')) : c.stats.read ≤ c'.stats.read := by
  unfold scanHeaders at h
  obtain ⟨_, -, h⟩ := Out.bind_eq_ok.1 h
  obtain ⟨c1, h1, h⟩ := Out.bind_eq_ok.1 h
  cases h
  exact adv_read h1

theorem blockHeader_read {opts : SFlags} {c c' : Cur} {k : ChompStyle} {n : Option Nat}
    (h : blockHeader opts c = .ok (k, n, c')) : c.stats.read ≤ c'.stats.read := by
  unfold blockHeader at h
  obtain ⟨_, -, h⟩ := Out.bind_eq_ok.1 h
  obtain ⟨c1, h1, h⟩ := Out.bind_eq_ok.1 h
  obtain ⟨⟨k1, n1, c2⟩, h2, h⟩ := Out.bind_eq_ok.1 h
  obtain ⟨c3, h3, h⟩ := Out.bind_eq_ok.1 h
  obtain ⟨_, -, h⟩ := Out.bind_eq_ok.1 h
  split at h
  · cases h
  obtain ⟨c4, h4, h⟩ := Out.bind_eq_ok.1 h
  cases h
  have := adv_read h1
  have := scanHeaders_read h2
  have := skipBlanks_read h3
  have := line_read h4
  omega

theorem detectBlanks_read {opts : SFlags} : ∀ {fuel : Nat} {st st' : DetectSt}, detectBlanks opts fuel st = .ok st' →
    st.cur.stats.read ≤ st'.cur.stats.read
  | 0, _, _, h => by cases h
  | fuel + 1, st, st', h => by
    unfold detectBlanks at h
    split at h
    · obtain ⟨_, -, h⟩ := Out.bind_eq_ok.1 h
      split at h
      · cases h
      obtain ⟨c1, h1, h⟩ := Out.bind_eq_ok.1 h
      have h2 := detectBlanks_read h
      exact Nat.le_trans (adv_read h1) h2
    · cases h; exact Nat.le_refl _

theorem detectLoop_read {opts : SFlags} : ∀ {fuel : Nat} {st st' : DetectSt}, detectLoop opts fuel st = .ok st' →
    st.cur.stats.read ≤ st'.cur.stats.read
  | 0, _, _, h => by cases h
  | fuel + 1, st, st', h => by
    unfold detectLoop at h
    obtain ⟨_, -, h⟩ := Out.bind_eq_ok.1 h
    obtain ⟨st1, h1, h⟩ := Out.bind_eq_ok.1 h
    obtain ⟨_, -, h⟩ := Out.bind_eq_ok.1 h
    have h1 := detectBlanks_read h1
    generalize (if st1.cur.stats.column > st1.indent then st1.cur.stats.column else st1.indent) = i at h
    split at h
    · obtain ⟨c1, h2, h⟩ := Out.bind_eq_ok.1 h
      have h3 := detectLoop_read h
      have h2 := line_read h2
      simp only at h2 h3
      omega
    · cases h; exact h1

theorem blockIndent_read {opts : SFlags} {e : Option Nat} {b : Nat} {c : Cur} {d : DetectSt}
    (h : blockIndent opts e b c = .ok d) : c.stats.read ≤ d.cur.stats.read := by
  unfold blockIndent at h
  split at h
  · cases h; exact Nat.le_refl _
  · unfold detectIndent at h
    obtain ⟨st1, h1, h⟩ := Out.bind_eq_ok.1 h
    cases h
    exact detectLoop_read h1

theorem eatBreak_read {opts : SFlags} {c c' : Cur} {n n' : Nat} (h : eatBreak opts c n = .ok (c', n')) :
    c.stats.read ≤ c'.stats.read := by
  unfold eatBreak at h
  obtain ⟨_, -, h⟩ := Out.bind_eq_ok.1 h
  split at h
  · obtain ⟨c1, h1, h⟩ := Out.bind_eq_ok.1 h
    cases h
    exact line_read h1
  · cases h; exact Nat.le_refl _

theorem scanIndentLoop_read {opts : SFlags} {i : Nat} : ∀ {fuel : Nat} {c c' : Cur} {n n' : Nat},
    scanIndentLoop opts i fuel c n = .ok (c', n') → c.stats.read ≤ c'.stats.read
  | 0, _, _, _, _, h => by cases h
  | fuel + 1, c, c', n, n', h => by
    unfold scanIndentLoop at h
    split at h
    · split at h
      · obtain ⟨c1, h1, h⟩ := Out.bind_eq_ok.1 h
        obtain ⟨_, -, h⟩ := Out.bind_eq_ok.1 h
        exact Nat.le_trans (adv_read h1) (scanIndentLoop_read h)
      split at h
      · cases h
      obtain ⟨c1, h1, h⟩ := Out.bind_eq_ok.1 h
      obtain ⟨_, -, h⟩ := Out.bind_eq_ok.1 h
      exact Nat.le_trans (line_read h1) (scanIndentLoop_read h)
    · cases h; exact Nat.le_refl _

theorem scanIndent_read {opts : SFlags} {i : Nat} {c c' : Cur} {n n' : Nat}
    (h : scanIndent opts i c n = .ok (c', n')) : c.stats.read ≤ c'.stats.read := by
  unfold scanIndent at h
  split at h
  · cases h; exact Nat.le_refl _
  obtain ⟨_, -, h⟩ := Out.bind_eq_ok.1 h
  exact scanIndentLoop_read h

theorem trapdoor_keeps {base : Str} {st st' : BlockSt} (h : st.trapdoor base = .ok st') : st'.cur = st.cur := by
  unfold BlockSt.trapdoor at h
  split at h
  · obtain ⟨_, -, h⟩ := Out.bind_eq_ok.1 h
    cases h; rfl
  · cases h; rfl

/-- **No subtraction in the main loop of block scalars underflows**, if it starts behind the start of the scalar. -/
theorem blockLines_eq {opts : SFlags} {base : Str} {read : Nat} {fold : Bool} {indent : Nat} : ∀ {fuel : Nat}
    {st : BlockSt}, read ≤ st.cur.stats.read →
    blockLines opts base read fold indent fuel st = blockLoop opts base read fold indent fuel st
  | 0, _, _ => rfl
  | fuel + 1, st, hr => by
    unfold blockLines blockLoop
    split
    · refine Out.bind_congr_ok fun st1 h1 => ?_
      have hr1 : read ≤ st1.cur.stats.read := by rw [trapdoor_keeps h1]; exact hr
      have e1 : st1.contentStart read = .ok (if st1.canBorrow then
          (if st1.start = 0 then st1.cur.stats.read - read else st1.start) else 0) := by
        unfold BlockSt.contentStart
        rw [minus_ok hr1]
        split
        · split <;> rfl
        · rfl
      rw [e1, Out.ok_bind]
      refine Out.bind_congr_ok fun _ _ => ?_
      refine Out.bind_congr_ok fun c1 h2 => ?_
      have hr2 : read ≤ c1.stats.read := Nat.le_trans hr1 (toBreak_read h2)
      have e2 : ∀ s : Str, contentEnd st1.canBorrow read c1 s =
          .ok (if st1.canBorrow then c1.stats.read - read else s.length) := by
        intro s
        unfold contentEnd
        rw [minus_ok hr2]
        split <;> rfl
      simp only [e2, Out.ok_bind]
      refine Out.bind_congr_ok fun ⟨c2, l2⟩ h3 => ?_
      refine Out.bind_congr_ok fun ⟨c3, l3⟩ h4 => ?_
      have hr3 : read ≤ c3.stats.read := Nat.le_trans hr2 (Nat.le_trans (eatBreak_read h3) (scanIndent_read h4))
      exact blockLines_eq hr3
    · rfl

theorem blockBegin_eq {read : Nat} {d : DetectSt} (h : read ≤ d.cur.stats.read) : blockBegin read d =
    .ok { cur := d.cur
          scratch := if d.canBorrow then [] else List.replicate d.lines 0x0A
          canBorrow := d.canBorrow
          start := if d.canBorrow then d.cur.stats.read - read else 0 } := by
  unfold blockBegin
  rw [minus_ok h]
  cases hb : d.canBorrow <;> simp [hb]

/-- **No subtraction in the scanner of block scalars underflows.** -/
theorem scanBlockEager_eq {opts : SFlags} {baseIndent : Nat} {fold : Bool} {c : Cur} :
    scanBlockEager opts baseIndent fold c = (do
      let (chomp, explicit, c1) ← blockHeader opts c
      let d ← blockIndent opts explicit baseIndent c1
      let st ← blockLoop opts c.buf c.stats.read fold d.indent (c.buf.length + 1)
        { cur := d.cur
          scratch := if d.canBorrow then [] else List.replicate d.lines 0x0A
          canBorrow := d.canBorrow
          start := if d.canBorrow then d.cur.stats.read - c.stats.read else 0 }
      let s ← scanChomp c.buf chomp st
      .ok (.Scalar s (blockStyle fold), st.cur)) := by
  unfold scanBlockEager
  refine Out.bind_congr_ok fun ⟨k, e, c1⟩ h1 => ?_
  refine Out.bind_congr_ok fun d h2 => ?_
  have hr := Nat.le_trans (blockHeader_read h1) (blockIndent_read h2)
  simp only [blockBegin_eq hr, Out.ok_bind]
  rw [blockLines_eq hr]

theorem push_read {st st' : PlainSt} (h : st.push = .ok st') :
    st.cur.stats.read ≤ st'.cur.stats.read ∧ st'.scalarStats = st.scalarStats := by
  unfold PlainSt.push at h
  obtain ⟨c1, h1, h⟩ := Out.bind_eq_ok.1 h
  cases h
  exact ⟨adv_read h1, rfl⟩

theorem noBorrow_read {base : Str} {st st' : PlainSt} (h : st.noBorrow base = .ok st') :
    st'.cur = st.cur ∧ st'.scalarStats = st.scalarStats := by
  unfold PlainSt.noBorrow at h
  split at h
  · obtain ⟨_, -, h⟩ := Out.bind_eq_ok.1 h
    cases h
    exact ⟨rfl, rfl⟩
  · cases h; exact ⟨rfl, rfl⟩

theorem plainWord_read {opts : SFlags} {block : Bool} : ∀ {fuel : Nat} {st st' : PlainSt},
    plainWord opts block fuel st = .ok st' →
    st.cur.stats.read ≤ st'.cur.stats.read ∧ st'.scalarStats = st.scalarStats
  | 0, _, _, h => by cases h
  | fuel + 1, st, st', h => by
    unfold plainWord at h
    split at h
    · cases h; exact ⟨Nat.le_refl _, rfl⟩
    obtain ⟨_, -, h⟩ := Out.bind_eq_ok.1 h
    split at h
    · cases h; exact ⟨Nat.le_refl _, rfl⟩
    obtain ⟨st1, h1, h⟩ := Out.bind_eq_ok.1 h
    obtain ⟨a, b⟩ := push_read h1
    obtain ⟨a', b'⟩ := plainWord_read h
    exact ⟨Nat.le_trans a a', b'.trans b⟩

theorem plainSpace_read {opts : SFlags} {base : Str} : ∀ {fuel : Nat} {st st' : PlainSt},
    plainSpace opts base fuel st = .ok st' →
    st.cur.stats.read ≤ st'.cur.stats.read ∧ st'.scalarStats = st.scalarStats
  | 0, _, _, h => by cases h
  | fuel + 1, st, st', h => by
    unfold plainSpace at h
    obtain ⟨_, -, h⟩ := Out.bind_eq_ok.1 h
    split at h
    · obtain ⟨st1, h1, h⟩ := Out.bind_eq_ok.1 h
      obtain ⟨a, b⟩ := push_read h1
      obtain ⟨a', b'⟩ := plainSpace_read h
      exact ⟨Nat.le_trans a a', b'.trans b⟩
    split at h
    · obtain ⟨st1, h1, h⟩ := Out.bind_eq_ok.1 h
      obtain ⟨c1, h2, h⟩ := Out.bind_eq_ok.1 h
      obtain ⟨a, b⟩ := noBorrow_read h1
      obtain ⟨a', b'⟩ := plainSpace_read h
      rw [← a]
      exact ⟨Nat.le_trans (line_read h2) a', b'.trans b⟩
    · cases h; exact ⟨Nat.le_refl _, rfl⟩

theorem plainJoin_read {st st' : PlainSt} (h : plainJoin st = .ok st') :
    st'.cur = st.cur ∧ st'.scalarStats = st.scalarStats := by
  unfold plainJoin at h
  split at h
  · cases h; exact ⟨rfl, rfl⟩
  all_goals
    obtain ⟨_, -, h⟩ := Out.bind_eq_ok.1 h
    cases h
    exact ⟨rfl, rfl⟩

theorem plainLoop_read {opts : SFlags} {base : Str} {indent : Nat} {block : Bool} {n : Nat} : ∀ {fuel : Nat}
    {st st' : PlainSt}, plainLoop opts base indent block fuel st = .ok st' →
    n ≤ st.cur.stats.read → n ≤ st.scalarStats.read → n ≤ st'.scalarStats.read
  | 0, _, _, h, _, _ => by cases h
  | fuel + 1, st, st', h, h1, h2 => by
    unfold plainLoop at h
    obtain ⟨_, -, h⟩ := Out.bind_eq_ok.1 h
    split at h
    · cases h; exact h2
    split at h
    · cases h; exact h2
    split at h
    · cases h; exact h2
    split at h
    · cases h; exact h2
    obtain ⟨s1, k1, h⟩ := Out.bind_eq_ok.1 h
    obtain ⟨s2, k2, h⟩ := Out.bind_eq_ok.1 h
    obtain ⟨s3, k3, h⟩ := Out.bind_eq_ok.1 h
    obtain ⟨a1, -⟩ := plainWord_read k1
    obtain ⟨a2, b2⟩ := plainSpace_read k2
    obtain ⟨a3, b3⟩ := plainJoin_read k3
    simp only at a1 a2 a3 b2 b3
    refine plainLoop_read h ?_ ?_
    · rw [a3]; omega
    · rw [b3, b2]; omega

/-- **No subtraction in the scanner of plain scalars underflows.** -/
theorem scanPlainEager_eq {opts : SFlags} {indent : Nat} {block : Bool} {c : Cur} :
    scanPlainEager opts indent block c = (do
      cache opts 2 c.buf
      if plainBadStart block c.buf then .err .InvalidPlainScalar
      else do
        let st ← plainLoop opts c.buf indent block (c.buf.length + 1) { cur := c, scalarStats := c.stats }
        let advance := st.scalarStats.read - c.stats.read
        let s ← plainSlice c.buf st advance
        let r ← Cur.skip ⟨c.buf, st.scalarStats⟩ advance
        .ok (.Scalar s .Plain, r)) := by
  unfold scanPlainEager
  refine Out.bind_congr_ok fun _ _ => ?_
  split
  · rfl
  refine Out.bind_congr_ok fun st h => ?_
  rw [minus_ok (plainLoop_read h (Nat.le_refl _) (Nat.le_refl _)), Out.ok_bind]

theorem plainLazyWord_read {opts : SFlags} {block : Bool} {n : Nat} : ∀ {fuel : Nat} {b : Bool}
    {st st' : PlainLazySt}, plainLazyWord opts block fuel st = .ok (b, st') →
    n ≤ st.cur.stats.read → n ≤ st.scalarStats.read → n ≤ st'.cur.stats.read ∧ n ≤ st'.scalarStats.read
  | 0, _, _, _, h, _, _ => by cases h
  | fuel + 1, b, st, st', h, h1, h2 => by
    unfold plainLazyWord at h
    split at h
    · cases h; exact ⟨h1, h2⟩
    obtain ⟨_, -, h⟩ := Out.bind_eq_ok.1 h
    split at h
    · cases h
      refine ⟨?_, h1⟩
      simp only [MStats.update]
      omega
    obtain ⟨c1, k1, h⟩ := Out.bind_eq_ok.1 h
    exact plainLazyWord_read h (Nat.le_trans h1 (adv_read k1)) h2

theorem plainLazySpace_read {opts : SFlags} {n : Nat} : ∀ {fuel : Nat}
    {st st' : PlainLazySt}, plainLazySpace opts fuel st = .ok st' →
    n ≤ st.cur.stats.read → n ≤ st.scalarStats.read → n ≤ st'.cur.stats.read ∧ n ≤ st'.scalarStats.read
  | 0, _, _, h, _, _ => by cases h
  | fuel + 1, st, st', h, h1, h2 => by
    unfold plainLazySpace at h
    obtain ⟨_, -, h⟩ := Out.bind_eq_ok.1 h
    split at h
    · obtain ⟨c1, k1, h⟩ := Out.bind_eq_ok.1 h
      exact plainLazySpace_read h (Nat.le_trans h1 (adv_read k1)) h2
    split at h
    · obtain ⟨c1, k1, h⟩ := Out.bind_eq_ok.1 h
      exact plainLazySpace_read h (Nat.le_trans h1 (line_read k1)) h2
    · cases h; exact ⟨h1, h2⟩

theorem plainLazyLoop_read {opts : SFlags} {base : Str} {indent : Nat} {block : Bool} {n : Nat} : ∀ {fuel : Nat}
    {st st' : PlainLazySt}, plainLazyLoop opts base indent block fuel st = .ok st' →
    n ≤ st.cur.stats.read → n ≤ st.scalarStats.read → n ≤ st'.cur.stats.read ∧ n ≤ st'.scalarStats.read
  | 0, _, _, h, _, _ => by cases h
  | fuel + 1, st, st', h, h1, h2 => by
    unfold plainLazyLoop at h
    obtain ⟨_, -, h⟩ := Out.bind_eq_ok.1 h
    split at h
    · cases h; exact ⟨h1, h2⟩
    split at h
    · cases h; exact ⟨h1, h2⟩
    split at h
    · cases h; exact ⟨h1, h2⟩
    split at h
    · cases h; exact ⟨h1, h2⟩
    obtain ⟨⟨b, s1⟩, k1, h⟩ := Out.bind_eq_ok.1 h
    obtain ⟨a1, b1⟩ := plainLazyWord_read k1 h1 h2
    simp only at h
    split at h
    · cases h; exact ⟨a1, b1⟩
    obtain ⟨s2, k2, h⟩ := Out.bind_eq_ok.1 h
    obtain ⟨a2, b2⟩ := plainLazySpace_read k2 a1 a1
    exact plainLazyLoop_read h a2 b2

/-- **No subtraction in the scanner of deferred plain scalars underflows.** -/
theorem scanPlainLazy_eq {opts : SFlags} {indent : Nat} {block : Bool} {c : Cur} :
    scanPlainLazy opts indent block c = (do
      let st ← plainLazyLoop opts c.buf indent block (c.buf.length + 1)
        { cur := c, scalarStats := c.stats }
      let advance := st.scalarStats.read - c.stats.read
      let boundary := st.cur.stats.read - c.stats.read
      let s ← slice c.buf 0 boundary
      let r ← Cur.skip ⟨c.buf, st.scalarStats⟩ advance
      .ok (.plain { opts with extendable := false } s c.stats indent block, r)) := by
  unfold scanPlainLazy
  refine Out.bind_congr_ok fun st h => ?_
  obtain ⟨a, b⟩ := plainLazyLoop_read h (Nat.le_refl _) (Nat.le_refl _)
  rw [minus_ok b, Out.ok_bind, minus_ok a, Out.ok_bind]

end Yary
