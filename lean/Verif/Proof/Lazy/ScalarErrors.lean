import Verif.Proof.Lazy.Flags
import Verif.Proof.Lazy.FlowErrors
import Verif.Proof.Lazy.PlainRest
import Verif.Proof.Lazy.BlockRest

/-! # Errors of plain and block scalars that are evaluated later -/

namespace Yary.Deferred

open Chunk Spec

variable {o o' : SFlags} (hx : o.extendable = false) (hx' : o'.extendable = false)

/-! ## Plain scalars -/

theorem minus_noErr {a b : Nat} {e : ScanError} : minus a b ≠ .err e := by
  unfold minus; split <;> simp

theorem skip_noErr {c : Cur} {n : Nat} {e : ScanError} : c.skip n ≠ .err e := by
  unfold Cur.skip; split <;> simp

theorem plainPush_noErr {st : PlainSt} {e : ScanError} : st.push ≠ .err e := by
  intro h
  unfold PlainSt.push at h
  obtain ⟨_, -, h⟩ := bind_err (fun _ => adv_noErr) h
  cases h

theorem plainNoBorrow_noErr {base : Str} {st : PlainSt} {e : ScanError} : st.noBorrow base ≠ .err e := by
  unfold PlainSt.noBorrow
  split
  · intro h
    obtain ⟨_, -, h⟩ := bind_err (fun _ => slice_noErr) h
    cases h
  · simp

include hx in
theorem plainWord_noErr {block : Bool} {fuel : Nat} {st : PlainSt} {e : ScanError} : plainWord o block fuel st ≠ .err e := by
  induction fuel generalizing st with
  | zero => simp [plainWord]
  | succ fuel ih =>
    intro h
    rw [plainWord, cache_whole o hx, Out.ok_bind] at h
    split at h
    · cases h
    split at h
    · cases h
    · obtain ⟨_, -, h⟩ := bind_err (fun _ => plainPush_noErr) h
      exact ih h

include hx in
theorem plainSpace_noErr {base : Str} {fuel : Nat} {st : PlainSt} {e : ScanError} : plainSpace o base fuel st ≠ .err e := by
  induction fuel generalizing st with
  | zero => simp [plainSpace]
  | succ fuel ih =>
    intro h
    rw [plainSpace, cache_whole o hx, Out.ok_bind] at h
    split at h
    · obtain ⟨_, -, h⟩ := bind_err (fun _ => plainPush_noErr) h
      exact ih h
    split at h
    · obtain ⟨_, -, h⟩ := bind_err (fun _ => plainNoBorrow_noErr) h
      obtain ⟨_, -, h⟩ := bind_err (fun _ => line_noErr) h
      exact ih h
    · cases h

theorem plainJoin_noErr {st : PlainSt} {e : ScanError} : plainJoin st ≠ .err e := by
  intro h
  unfold plainJoin at h
  split at h
  · cases h
  · obtain ⟨_, -, h⟩ := bind_err (fun _ => truncEnd_noErr) h
    cases h
  · obtain ⟨_, -, h⟩ := bind_err (fun _ => truncEnd_noErr) h
    cases h

include hx in
theorem plainLoop_noErr {base : Str} {indent : Nat} {block : Bool} {fuel : Nat} {st : PlainSt} {e : ScanError} :
    plainLoop o base indent block fuel st ≠ .err e := by
  induction fuel generalizing st with
  | zero => simp [plainLoop]
  | succ fuel ih =>
    intro h
    rw [plainLoop, cache_whole o hx, Out.ok_bind] at h
    split at h
    · cases h
    split at h
    · cases h
    split at h
    · cases h
    split at h
    · cases h
    obtain ⟨_, -, h⟩ := bind_err (fun _ => plainWord_noErr hx) h
    obtain ⟨_, -, h⟩ := bind_err (fun _ => plainSpace_noErr hx) h
    obtain ⟨_, -, h⟩ := bind_err (fun _ => plainJoin_noErr) h
    exact ih h

theorem plainSlice_noErr {base : Str} {st : PlainSt} {n : Nat} {e : ScanError} : plainSlice base st n ≠ .err e := by
  intro h
  unfold plainSlice at h
  split at h
  · exact slice_noErr h
  · obtain ⟨_, -, h⟩ := bind_err (fun _ => truncEnd_noErr) h
    exact fromUtf8Unwrap_noErr h

include hx in
/-- The only error of a plain scalar. -/
theorem scanPlainEager_err {indent : Nat} {block : Bool} {c : Cur} {e : ScanError} (h : scanPlainEager o indent block c = .err e) :
    plainBadStart block c.buf = true ∧ e = .InvalidPlainScalar := by
  unfold scanPlainEager at h
  rw [cache_whole o hx, Out.ok_bind] at h
  split at h
  · rename_i hb
    injection h with h
    exact ⟨hb, h.symm⟩
  · exfalso
    obtain ⟨_, -, h⟩ := bind_err (fun _ => plainLoop_noErr hx) h
    obtain ⟨_, -, h⟩ := bind_err (fun _ => minus_noErr) h
    obtain ⟨_, -, h⟩ := bind_err (fun _ => plainSlice_noErr) h
    obtain ⟨_, -, h⟩ := bind_err (fun _ => skip_noErr) h
    cases h

include hx hx' in
/-- The error of a plain scalar that is scanned without evaluation comes when it is evaluated. -/
theorem scanPlain_err {indent : Nat} {block : Bool} {c c2 : Cur} {l : Lazy} {e : ScanError}
    (h : scanPlainEager o' indent block c = .err e) (h' : scanPlainLazy o indent block c = .ok (l, c2)) : l.intoToken = .err e := by
  obtain ⟨hb, rfl⟩ := scanPlainEager_err hx' h
  obtain ⟨buf, m⟩ := c
  -- the first two bytes
  obtain ⟨a, b, r, rfl, ha, hfb⟩ : ∃ a b r, buf = a :: b :: r ∧ (a = b! ':' ∨ a = b! '?' ∨ a = b! '-') ∧
      (b = b! ',' ∨ b = b! '[' ∨ b = b! ']' ∨ b = b! '{' ∨ b = b! '}') := by
    unfold plainBadStart flowIndicator at hb
    match buf, hb with
    | [], hb => simp [startsWith] at hb
    | [a], hb => simp [startsWith] at hb
    | a :: b :: r, hb =>
      refine ⟨a, b, r, rfl, ?_, ?_⟩
      all_goals
        simp only [startsWith_cons, List.drop_succ_cons, List.drop_zero, Bool.and_eq_true, Bool.or_eq_true, beq_iff_eq] at hb
        first
          | (obtain ⟨⟨-, (hb | hb) | hb⟩, -⟩ := hb <;> simp [hb])
          | (obtain ⟨-, (((hb | hb) | hb) | hb) | hb⟩ := hb <;> simp [hb])
  have hblock : block = false := by
    unfold plainBadStart at hb
    cases block with
    | false => rfl
    | true => simp at hb
  subst hblock
  have hfi : flowIndicator (b :: r) = true := by
    unfold flowIndicator
    simp only [startsWith_cons]
    rcases hfb with rfl | rfl | rfl | rfl | rfl <;> rfl
  have hwb : isWhiteSpaceZ (b :: r) = false := by
    rcases hfb with rfl | rfl | rfl | rfl | rfl <;> simp [isWhiteSpaceZ, isBlank, isBreak, startsWith]
  have hwa : isWhiteSpaceZ (a :: b :: r) = false := by
    rcases ha with rfl | rfl | rfl <;> simp [isWhiteSpaceZ, isBlank, isBreak, startsWith]
  have hea : plainEnd false (a :: b :: r) = false := by
    unfold plainEnd flowIndicator
    simp only [startsWith_cons, List.drop_succ_cons, List.drop_zero, hwb]
    rcases ha with rfl | rfl | rfl <;> rfl
  have heb : plainEnd false (b :: r) = true := by
    unfold plainEnd
    rw [hfi]; simp
  have hdi : isDocumentIndicator (a :: b :: r) m.column = false := by
    cases hd : isDocumentIndicator (a :: b :: r) m.column with
    | false => rfl
    | true =>
      exfalso
      unfold isDocumentIndicator at hd
      simp only [Bool.and_eq_true] at hd
      obtain ⟨x, s, hx, hs⟩ := startsMarker_three hd.1.2
      injection hs with h1 hs; injection hs with h2 hs
      subst h2
      rcases hx with rfl | rfl <;> simp at hfb
  have hha : startsWith (a :: b :: r) b! '#' = false := by
    rw [startsWith_cons]
    rcases ha with rfl | rfl | rfl <;> rfl
  unfold scanPlainLazy at h'
  obtain ⟨st, h1, h'⟩ := Out.bind_eq_ok.1 h'
  obtain ⟨n1, h2, h'⟩ := Out.bind_eq_ok.1 h'
  obtain ⟨n2, h3, h'⟩ := Out.bind_eq_ok.1 h'
  obtain ⟨s, h4, h'⟩ := Out.bind_eq_ok.1 h'
  obtain ⟨r', h5, h'⟩ := Out.bind_eq_ok.1 h'
  injection h' with h'; injection h' with h' _; subst h'
  rw [plainLazyLoop] at h1
  simp only [cache_whole o hx, Out.ok_bind, List.isEmpty_cons, Bool.false_eq_true, if_false, hdi, hha, Bool.or_false, hea] at h1
  obtain ⟨⟨d, st1⟩, g1, h1⟩ := Out.bind_eq_ok.1 h1
  simp only [List.length_cons, plainLazyWord, cache_whole o hx, Out.ok_bind, hwa, hea, Bool.false_eq_true, if_false] at g1
  obtain ⟨c1, g2, g1⟩ := Out.bind_eq_ok.1 g1
  obtain ⟨rfl, -⟩ := adv_ok g2
  simp only [List.drop_succ_cons, List.drop_zero, hwb, heb, Bool.false_eq_true, if_false, if_true] at g1
  injection g1 with g1; injection g1 with g1 g3
  subst g1 g3
  simp only [if_true] at h1
  injection h1 with h1
  subst h1
  have hn2 : 2 ≤ n2 := by
    have hm : ∀ {a b n : Nat}, minus a b = .ok n → n = a - b := by
      intro a b n h
      unfold minus at h
      split at h
      · injection h with h; exact h.symm
      · cases h
    have := hm h3
    simp only [MStats.update] at this
    split at this <;> omega
  have hs : s = (a :: b :: r).take n2 := by
    unfold slice at h4
    split at h4
    · injection h4 with h4; exact h4.symm
    · cases h4
  obtain ⟨k, rfl⟩ : ∃ k, n2 = k + 2 := ⟨n2 - 2, by omega⟩
  simp only [List.take_succ_cons] at hs
  subst hs
  have hbs : plainBadStart false (a :: b :: r.take k) = true := by
    unfold plainBadStart flowIndicator at hb ⊢
    simpa only [startsWith_cons, List.drop_succ_cons, List.drop_zero] using hb
  unfold Lazy.intoToken scanPlainEager
  simp only
  rw [cache_whole { o with extendable := false } rfl, Out.ok_bind, if_pos hbs, Out.err_bind]

/-! ## Block scalars -/

section
variable (he : o.extendable = o'.extendable)
include he

theorem toBreak_flag : toBreak o = toBreak o' := by
  funext n
  induction n with
  | zero => rfl
  | succ n ih => funext c; simp only [toBreak, cache_flag he, ih]

theorem skipBlanks_flag : skipBlanks o = skipBlanks o' := by
  have h : ∀ n, skipBlanksLoop o n = skipBlanksLoop o' n := by
    intro n
    induction n with
    | zero => rfl
    | succ n ih => funext c; simp only [skipBlanksLoop, cache_flag he, ih]
  funext c
  simp only [skipBlanks, h, cache_flag he, toBreak_flag he]

theorem blockHeader_flag : blockHeader o = blockHeader o' := by
  funext c
  simp only [blockHeader, scanHeaders, skipBlanks_flag he, cache_flag he]

theorem blockIndent_flag : blockIndent o = blockIndent o' := by
  have h1 : ∀ n, detectBlanks o n = detectBlanks o' n := by
    intro n
    induction n with
    | zero => rfl
    | succ n ih => funext c; simp only [detectBlanks, cache_flag he, ih]
  have h2 : ∀ n, detectLoop o n = detectLoop o' n := by
    intro n
    induction n with
    | zero => rfl
    | succ n ih => funext c; simp only [detectLoop, cache_flag he, ih, h1]
  funext ex b c
  simp only [blockIndent, detectIndent, h2]

theorem scanIndent_flag : scanIndent o = scanIndent o' := by
  have h : ∀ i n, scanIndentLoop o i n = scanIndentLoop o' i n := by
    intro i n
    induction n with
    | zero => rfl
    | succ n ih => funext c k; simp only [scanIndentLoop, cache_flag he, ih]
  funext i c k
  simp only [scanIndent, cache_flag he, h]

theorem blockLazyLoop_flag : blockLazyLoop o = blockLazyLoop o' := by
  funext i n
  induction n with
  | zero => rfl
  | succ n ih => funext c; simp only [blockLazyLoop, eatBreak, cache_flag he, ih, toBreak_flag he, scanIndent_flag he]

end

include hx in
theorem toBreak_noErr {fuel : Nat} {c : Cur} {e : ScanError} : toBreak o fuel c ≠ .err e := by
  induction fuel generalizing c with
  | zero => simp [toBreak]
  | succ fuel ih =>
    intro h
    rw [toBreak, cache_whole o hx, Out.ok_bind] at h
    split at h
    · cases h
    · obtain ⟨_, -, h⟩ := bind_err (fun _ => adv_noErr) h
      exact ih h

include hx in
theorem eatBreak_noErr {c : Cur} {n : Nat} {e : ScanError} : eatBreak o c n ≠ .err e := by
  intro h
  unfold eatBreak at h
  rw [cache_whole o hx, Out.ok_bind] at h
  split at h
  · obtain ⟨_, -, h⟩ := bind_err (fun _ => line_noErr) h
    cases h
  · cases h

/-- The number of lines makes no difference to the rest. -/
theorem scanIndentLoop_lines {indent fuel n m : Nat} {c : Cur} :
    (scanIndentLoop o indent fuel c n >>= fun r => .ok r.1) = (scanIndentLoop o indent fuel c m >>= fun r => .ok r.1) := by
  induction fuel generalizing n m c with
  | zero => rfl
  | succ fuel ih =>
    rw [scanIndentLoop, scanIndentLoop]
    split
    · split
      · simp only [bind_assoc]
        cases c.adv 1 with
        | ok c1 => simp only [Out.ok_bind]; cases cache o 1 c1.buf with
          | ok u => exact ih
          | err e => rfl
          | panic => rfl
          | diverge => rfl
        | err e => rfl
        | panic => rfl
        | diverge => rfl
      split
      · rfl
      · simp only [bind_assoc]
        cases c.line with
        | ok c1 => simp only [Out.ok_bind]; cases cache o 1 c1.buf with
          | ok u => exact ih
          | err e => rfl
          | panic => rfl
          | diverge => rfl
        | err e => rfl
        | panic => rfl
        | diverge => rfl
    · rfl

theorem scanIndent_lines {indent n m : Nat} {c : Cur} :
    (scanIndent o indent c n >>= fun r => .ok r.1) = (scanIndent o indent c m >>= fun r => .ok r.1) := by
  unfold scanIndent
  split
  · rfl
  · simp only [bind_assoc]
    cases cache o 1 c.buf with
    | ok u => exact scanIndentLoop_lines
    | err e => rfl
    | panic => rfl
    | diverge => rfl

include hx in
/-- An error in the lines of a block scalar comes without evaluation, too. -/
theorem blockLoop_err {base : Str} {read : Nat} {fold : Bool} {indent fuel fuel' : Nat} {st : BlockSt} {x : Cur} {e : ScanError}
    (hv : validUtf8 st.cur.buf = true) (h : blockLoop o base read fold indent fuel st = .err e)
    (h' : blockLazyLoop o indent fuel' st.cur = .ok x) : False := by
  induction fuel generalizing st fuel' with
  | zero => cases h
  | succ fuel ih =>
    cases fuel' with
    | zero => cases h'
    | succ fuel' =>
      rw [blockLoop_succ] at h
      rw [blockLazyLoop] at h'
      split at h
      · rename_i hc
        rw [if_pos hc, cache_whole o hx, Out.ok_bind] at h'
        obtain ⟨st1, h1, h⟩ := bind_err (fun e h => by
          unfold BlockSt.trapdoor at h
          split at h
          · obtain ⟨_, -, h⟩ := bind_err (fun _ => slice_noErr) h
            cases h
          · cases h) h
        have hc1 : st1.cur = st.cur := by
          unfold BlockSt.trapdoor at h1
          split at h1
          · obtain ⟨s, -, h1⟩ := Out.bind_eq_ok.1 h1
            injection h1 with h1; subst h1; rfl
          · injection h1 with h1; subst h1; rfl
        rw [cache_whole o hx, Out.ok_bind, hc1] at h
        obtain ⟨c, h2, h⟩ := bind_err (fun _ => toBreak_noErr hx) h
        have hnil : HeadOk [] := fun b t h => by cases h
        obtain ⟨d, e1, h2'⟩ := toBreak_back hx hx hnil (fuel' := st.cur.buf.length + 1) hv (Nat.lt_succ_self _)
          (by rw [grow_nil]; exact h2) (.inl rfl)
        rw [grow_nil] at e1; subst e1
        rw [h2', Out.ok_bind] at h'
        have m1 := (toBreak_moves hx h2).1
        obtain ⟨⟨c0, k0⟩, g1, h'⟩ := Out.bind_eq_ok.1 h'
        obtain ⟨⟨c1, k1⟩, g2, h'⟩ := Out.bind_eq_ok.1 h'
        simp only at h' g2
        rw [g1, Out.ok_bind] at h
        simp only at h
        have hl := scanIndent_lines (o := o) (indent := indent) (n := 0) (m := k0) (c := c0)
        rw [g2] at hl
        cases g3 : scanIndent o indent c0 k0 with
        | ok r =>
          rw [g3] at hl
          injection hl with hl
          rw [g3, Out.ok_bind] at h
          simp only at hl
          have m2 := (eatBreak_moves hx g1).1
          have m3 := scanIndent_moves hx (x := r.1) (k := r.2) g3
          rw [hl] at h'
          exact ih (m3.valid (m2.valid (m1.valid hv))) h h'
        | err e' => rw [g3] at hl; cases hl
        | panic => rw [g3] at hl; cases hl
        | diverge => rw [g3] at hl; cases hl
      · cases h

theorem chomp_noErr {base : Str} {ch : ChompStyle} {st : BlockSt} {e : ScanError} : scanChomp base ch st ≠ .err e := by
  have hcopy : ∀ {s : Str} {ch : ChompStyle} {a b : Nat}, chompCopy s ch a b ≠ .err e := by
    intro s ch a b
    unfold chompCopy
    repeat' split
    all_goals exact fromUtf8Unwrap_noErr
  intro h
  unfold scanChomp at h
  split at h
  · split at h
    · obtain ⟨_, -, h⟩ := bind_err (fun _ => slice_noErr) h
      exact hcopy h
    · unfold chompBorrow at h
      split at h
      · split at h
        · obtain ⟨_, -, h⟩ := bind_err (fun _ => slice_noErr) h
          exact slice_noErr h
        · exact slice_noErr h
      · exact slice_noErr h
      · exact slice_noErr h
  · exact hcopy h

include hx hx' in
/-- A block scalar with an error is not scanned without evaluation. -/
theorem scanBlock_err {k : Nat} {fold : Bool} {c c2 : Cur} {l : Lazy} {e : ScanError} (hv : validUtf8 c.buf = true)
    (h : scanBlockEager o k fold c = .err e) (h' : scanBlockLazy o' k fold c = .ok (l, c2)) : False := by
  have he : o'.extendable = o.extendable := by rw [hx, hx']
  rw [scanBlockEager_eq] at h
  unfold scanBlockLazy at h'
  rw [blockHeader_flag he, blockIndent_flag he, blockLazyLoop_flag he] at h'
  obtain ⟨⟨ch, ex, c1⟩, h1, h'⟩ := Out.bind_eq_ok.1 h'
  obtain ⟨d, h2, h'⟩ := Out.bind_eq_ok.1 h'
  obtain ⟨c3, h3, h'⟩ := Out.bind_eq_ok.1 h'
  rw [h1, Out.ok_bind] at h
  simp only at h
  rw [h2, Out.ok_bind] at h
  have m1 : Moves c c1 := by
    rw [Chunk.blockHeader_eq] at h1
    obtain ⟨⟨ch', ex', c1'⟩, g1, h1⟩ := Out.bind_eq_ok.1 h1
    obtain ⟨c2', g2, h1⟩ := Out.bind_eq_ok.1 h1
    injection h1 with h1; injection h1 with _ h1; injection h1 with _ h1; subst h1
    exact (headTo_props hx hx (show HeadOk [] from fun b t h => by cases h) g1).1.trans (.line g2)
  have m2 : Moves c1 d.cur := by
    unfold blockIndent at h2
    split at h2
    · injection h2 with h2; subst h2; exact .refl _
    · unfold detectIndent at h2
      obtain ⟨d', g1, h2⟩ := Out.bind_eq_ok.1 h2
      injection h2 with h2; subst h2
      exact detectLoop_moves hx g1
  rcases Out.bind_eq_err.1 h with h | ⟨st, -, h⟩
  · exact blockLoop_err hx (m2.valid (m1.valid hv)) h h3
  · obtain ⟨_, -, h⟩ := bind_err (fun _ => chomp_noErr) h
    cases h

end Yary.Deferred
