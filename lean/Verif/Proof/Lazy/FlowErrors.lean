import Verif.Proof.Lazy.FlowRest

/-! # Errors of quoted scalars that are evaluated later -/

namespace Yary.Deferred

open Chunk Spec

variable {o o' : SFlags} {t : Str} (hx : o.extendable = false) (hx' : o'.extendable = false) (ht : HeadOk t)

theorem adv_noErr {c : Cur} {n : Nat} {e : ScanError} : c.adv n ≠ .err e := by
  unfold Cur.adv; split <;> simp

theorem line_noErr {c : Cur} {e : ScanError} : c.line ≠ .err e := by
  unfold Cur.line; split <;> simp

theorem slice_noErr {s : Str} {a b : Nat} {e : ScanError} : (slice s a b : Out ScanError Str) ≠ .err e := by
  unfold slice; split <;> simp

theorem bind_err {α β : Type} {x : Out ScanError α} {f : α → Out ScanError β} {e : ScanError} (hx : ∀ e, x ≠ .err e)
    (h : (x >>= f) = .err e) : ∃ a, x = .ok a ∧ f a = .err e := by
  rcases Out.bind_eq_err.1 h with h | h
  · exact absurd h (hx e)
  · exact h

theorem noBorrow_noErr {base : Str} {st : FlowSt} {e : ScanError} : st.noBorrow base ≠ .err e := by
  unfold FlowSt.noBorrow
  split
  · intro h
    obtain ⟨_, -, h⟩ := bind_err (fun _ => slice_noErr) h
    cases h
  · simp

theorem push_noErr {st : FlowSt} {e : ScanError} : st.push ≠ .err e := by
  intro h
  unfold FlowSt.push at h
  obtain ⟨_, -, h⟩ := bind_err (fun _ => adv_noErr) h
  cases h

include hx in
theorem flowSpace_noErr {base : Str} {fuel : Nat} {st : FlowSt} {e : ScanError} : flowSpace o base fuel st ≠ .err e := by
  induction fuel generalizing st with
  | zero => simp [flowSpace]
  | succ fuel ih =>
    intro h
    rw [flowSpace, cache_whole o hx, Out.ok_bind] at h
    split at h
    · obtain ⟨_, -, h⟩ := bind_err (fun _ => push_noErr) h
      exact ih h
    split at h
    · obtain ⟨_, -, h⟩ := bind_err (fun _ => noBorrow_noErr) h
      obtain ⟨_, -, h⟩ := bind_err (fun _ => line_noErr) h
      exact ih h
    · cases h

theorem truncEnd_noErr {s : Str} {n : Nat} {e : ScanError} : truncEnd s n ≠ .err e := by
  unfold truncEnd; split <;> simp

theorem flowJoin_noErr {base : Str} {st : FlowSt} {e : ScanError} : flowJoin base st ≠ .err e := by
  intro h
  unfold flowJoin at h
  split at h
  · cases h
  · obtain ⟨_, -, h⟩ := bind_err (fun _ => noBorrow_noErr) h
    obtain ⟨_, -, h⟩ := bind_err (fun _ => truncEnd_noErr) h
    cases h
  · obtain ⟨_, -, h⟩ := bind_err (fun _ => noBorrow_noErr) h
    obtain ⟨_, -, h⟩ := bind_err (fun _ => truncEnd_noErr) h
    cases h

theorem fromUtf8Unwrap_noErr {s : Str} {e : ScanError} : (fromUtf8Unwrap s : Out ScanError Str) ≠ .err e := by
  unfold fromUtf8Unwrap; split <;> simp

theorem flowSlice_noErr {base : Str} {st : FlowSt} {e : ScanError} : flowSlice base st ≠ .err e := by
  unfold flowSlice
  split
  · exact slice_noErr
  · exact fromUtf8Unwrap_noErr

/-! ## Where scanning without evaluation ends -/

theorem width_pos {s : Str} (hv : validUtf8 s = true) (hne : s ≠ []) : 1 ≤ widthOf s := by
  obtain ⟨x, s, rfl⟩ := List.exists_cons_of_ne_nil hne
  obtain ⟨ch, r, hc, -⟩ := validUtf8_uncons hv
  obtain ⟨b, t, hct, -, -, -, hw⟩ := utf8Char_shape ch
  rw [hct] at hc
  simp only [List.cons_append, List.cons.injEq] at hc
  obtain ⟨rfl, rfl⟩ := hc
  rw [hw]; omega

include hx in
/-- More fuel makes no difference. -/
theorem flowLazyLoop_fuel {single : Bool} {f f' : Nat} {c : Cur} (hv : validUtf8 c.buf = true) (hf : c.buf.length < f) (hf' : c.buf.length < f') :
    flowLazyLoop o single f c = flowLazyLoop o single f' c := by
  induction f generalizing f' c with
  | zero => omega
  | succ f ih =>
    obtain ⟨f', rfl⟩ : ∃ k, f' = k + 1 := ⟨f' - 1, by omega⟩
    rw [flowLazyLoop, flowLazyLoop, cache_whole o hx, Out.ok_bind, Out.ok_bind]
    have go : ∀ {n : Nat}, 1 ≤ n → c.buf ≠ [] → (c.adv n >>= fun c => flowLazyLoop o single f c) = (c.adv n >>= fun c => flowLazyLoop o single f' c) := by
      intro n hn hne
      cases hc : c.adv n with
      | ok c1 =>
        have hv1 := adv_valid hv hc
        obtain ⟨rfl, -⟩ := adv_ok hc
        have := List.length_pos_iff.2 hne
        refine ih hv1 ?_ ?_ <;> simp only [List.length_drop] <;> omega
      | err e => rfl
      | panic => rfl
      | diverge => rfl
    by_cases he : c.buf.isEmpty = true
    · rw [if_pos he, if_pos he]
    have hne : c.buf ≠ [] := by simpa using he
    rw [if_neg he, if_neg he]
    split
    · exact go (by omega) hne
    split
    · rfl
    split
    · rename_i hb
      cases hc : c.line with
      | ok c1 =>
        obtain ⟨rfl, hbd⟩ := line_ok hc
        have := List.length_pos_iff.2 hne
        have := breakLen_pos.2 hb
        refine ih (validUtf8_drop hv hbd) ?_ ?_ <;> simp only [List.length_drop] <;> omega
      | err e => rfl
      | panic => rfl
      | diverge => rfl
    · exact go (width_pos hv hne) hne

/-- Scanning from there without evaluation ends where only `t` is left. -/
def Ends (o : SFlags) (single : Bool) (c : Cur) (t : Str) : Prop :=
  ∃ m, ∀ f, c.buf.length < f → flowLazyLoop o single f c = .ok ⟨t, m⟩

include hx in
theorem Ends.step {single : Bool} {c c' : Cur} (h : LazyTo o single c c') (hv : validUtf8 c'.buf = true) (he : Ends o single c t) : Ends o single c' t := by
  obtain ⟨m, hm⟩ := he
  refine ⟨m, fun f hf => ?_⟩
  have := h (flowLazyLoop o single f c') (fun f' hf' => flowLazyLoop_fuel hx hv hf' hf) (c.buf.length + 1) (by omega)
  rw [← this]
  exact hm _ (by omega)

include hx in
/-- It ends after a quote. -/
theorem flowLazyLoop_last {single : Bool} {f : Nat} {c c2 : Cur} (hv : validUtf8 c.buf = true) (h : flowLazyLoop o single f c = .ok c2) :
    validUtf8 c2.buf = true ∧ ∃ w q, (q = 0x27 ∨ q = b! '"') ∧ c.buf = w ++ q :: c2.buf := by
  induction f generalizing c with
  | zero => cases h
  | succ f ih =>
    rw [flowLazyLoop, cache_whole o hx, Out.ok_bind] at h
    have go : ∀ {n : Nat} {c1 : Cur}, validUtf8 c1.buf = true → c1.buf = c.buf.drop n → flowLazyLoop o single f c1 = .ok c2 →
        validUtf8 c2.buf = true ∧ ∃ w q, (q = 0x27 ∨ q = b! '"') ∧ c.buf = w ++ q :: c2.buf := by
      intro n c1 hv1 h1 h2
      obtain ⟨h3, w, q, hq, h4⟩ := ih hv1 h2
      refine ⟨h3, c.buf.take n ++ w, q, hq, ?_⟩
      rw [List.append_assoc, ← h4, h1, List.take_append_drop]
    split at h
    · cases h
    split at h
    · obtain ⟨c1, h1, h⟩ := Out.bind_eq_ok.1 h
      exact go (adv_valid hv h1) (by rw [(adv_ok h1).1]) h
    split at h
    · rename_i hq
      refine ⟨adv_valid hv h, ?_⟩
      obtain ⟨rfl, -⟩ := adv_ok h
      rw [Bool.or_eq_true, Bool.and_eq_true, Bool.and_eq_true] at hq
      rcases hq with ⟨-, hq⟩ | ⟨-, hq⟩
      · obtain ⟨r, hr⟩ := startsWith_iff.1 hq
        exact ⟨[], _, .inl rfl, by rw [hr]; rfl⟩
      · obtain ⟨r, hr⟩ := startsWith_iff.1 hq
        exact ⟨[], _, .inr rfl, by rw [hr]; rfl⟩
    split at h
    · obtain ⟨c1, h1, h⟩ := Out.bind_eq_ok.1 h
      obtain ⟨e1, hb⟩ := line_ok h1
      exact go (by rw [e1]; exact validUtf8_drop hv hb) (by rw [e1]) h
    · obtain ⟨c1, h1, h⟩ := Out.bind_eq_ok.1 h
      exact go (adv_valid hv h1) (by rw [(adv_ok h1).1]) h

include hx in
theorem Ends.last {single : Bool} {s : Str} {m : MStats} (he : Ends o single ⟨s ++ t, m⟩ t) (hv : validUtf8 (s ++ t) = true) :
    ∃ w q, (q = 0x27 ∨ q = b! '"') ∧ s = w ++ [q] := by
  obtain ⟨m', hm⟩ := he
  obtain ⟨-, w, q, hq, h⟩ := flowLazyLoop_last hx (c := ⟨s ++ t, m⟩) hv (hm _ (Nat.lt_succ_self _))
  refine ⟨w, q, hq, List.append_cancel_right (bs := t) ?_⟩
  simpa using h

/-! ## Escapes -/

theorem readHex_err {n v : Nat} {w : Str} {q : Byte} {e : ScanError} (hq : q = 0x27 ∨ q = b! '"')
    (h : readHex n v (w ++ q :: t) = .err e) : readHex n v (w ++ [q]) = .err e := by
  induction n generalizing v w with
  | zero => cases h
  | succ n ih =>
    cases w with
    | nil =>
      have hh : isHexDigit q = false := by rcases hq with rfl | rfl <;> decide
      simp only [List.nil_append, readHex, hh] at h ⊢
      exact h
    | cons b w =>
      simp only [List.cons_append, readHex] at h ⊢
      split at h
      · rename_i hb; rw [if_pos hb]; exact ih h
      · rename_i hb; rw [if_neg hb]; exact h

include hx hx' in
theorem flowUnescape_err {w : Str} {q : Byte} {e : ScanError} (hq : q = 0x27 ∨ q = b! '"') (hs : startsWith (w ++ [q]) 0x5C = true)
    (h : flowUnescape o (w ++ [q] ++ t) = .err e) : flowUnescape o' (w ++ [q]) = .err e := by
  unfold flowUnescape at h ⊢
  rw [startsWith_grow (by simp), hs] at h
  rw [hs]
  simp only [cache_whole o hx, cache_whole o' hx', Out.ok_bind, Bool.not_true, Bool.false_eq_true, if_false] at h ⊢
  cases w with
  | nil => rcases hq with rfl | rfl <;> cases hs
  | cons b w =>
    simp only [List.cons_append, List.drop_succ_cons, List.drop_zero] at h ⊢
    cases w with
    | nil =>
      have hk : escapeKind ([] ++ [q] ++ t) = escapeKind ([] ++ [q]) := rfl
      rw [hk] at h
      rcases hq with rfl | rfl
      · exact h
      · exact h
    | cons b w =>
      have hk : escapeKind (b :: w ++ [q] ++ t) = escapeKind (b :: w ++ [q]) := rfl
      rw [hk] at h
      revert h
      cases escapeKind (b :: w ++ [q]) with
      | eof => exact fun h => h
      | unknown => exact fun h => h
      | bytes v => exact fun h => h
      | code k =>
        intro h
        simp only [List.cons_append, List.drop_succ_cons, List.drop_zero, List.append_assoc, List.nil_append] at h ⊢
        rcases Out.bind_eq_err.1 h with h | ⟨_, _, h⟩
        · rw [readHex_err hq h]; rfl
        · cases h

/-! ## Words -/

variable {o1 : SFlags} (hx1 : o1.extendable = false)

include hx hx' hx1 ht in
/-- An error in a word of a quoted scalar is there without what follows the scalar. -/
theorem flowWord_err {base : Str} {single : Bool} {fuel fuel' : Nat} {st : FlowSt} {e : ScanError}
    (hv : validUtf8 (st.cur.buf ++ t) = true) (hne : single = false → NoEsc (st.cur.buf ++ t)) (hf : st.cur.buf.length < fuel')
    (hE : Ends o1 single ⟨st.cur.buf ++ t, st.cur.stats⟩ t)
    (h : flowWord o (base ++ t) single fuel (FlowSt.grow t st) = .err e) : flowWord o' base single fuel' st = .err e := by
  induction fuel generalizing fuel' st with
  | zero => cases h
  | succ fuel ih =>
    obtain ⟨fuel', rfl⟩ : ∃ k, fuel' = k + 1 := ⟨fuel' - 1, by omega⟩
    have hgb : (FlowSt.grow t st).cur.buf = st.cur.buf ++ t := rfl
    obtain ⟨w, q, hqq, hwq⟩ := hE.last hx1 hv
    have hvs : validUtf8 st.cur.buf = true := valid_before hv ht
    have hnil : st.cur.buf ≠ [] := by rw [hwq]; simp
    have hpos : 1 ≤ st.cur.buf.length := List.length_pos_iff.2 hnil
    rw [flowWord] at h ⊢
    rw [hgb, isWhiteSpaceZ_grow hvs hnil, startsWith_grow hnil, startsWith_grow hnil, startsWith_grow hnil,
      cache_whole o hx, Out.ok_bind] at h
    rw [cache_whole o' hx', Out.ok_bind]
    by_cases hw : isWhiteSpaceZ st.cur.buf = true
    · rw [if_pos hw] at h; cases h
    rw [if_neg hw] at h ⊢
    -- after a step of `n` bytes
    have go : ∀ {n : Nat} {c : Cur} {f : Cur → FlowSt}, 1 ≤ n →
        Cur.adv ⟨st.cur.buf ++ t, st.cur.stats⟩ n = .ok c → LazyTo o1 single ⟨st.cur.buf ++ t, st.cur.stats⟩ c →
        (∀ c, (f c).cur = c) → (∀ c, f ⟨c.buf ++ t, c.stats⟩ = FlowSt.grow t (f c)) →
        flowWord o (base ++ t) single fuel (f c) = .err e →
        n < st.cur.buf.length ∧ st.cur.adv n = .ok ⟨st.cur.buf.drop n, st.cur.stats.update n 0 n⟩ ∧
          flowWord o' base single fuel' (f ⟨st.cur.buf.drop n, st.cur.stats.update n 0 n⟩) = .err e := by
      intro n c f h1 hadv hlz hf1 hf2 hrest
      have hvc := adv_valid hv hadv
      have hE1 := hE.step hx1 hlz hvc
      have hlen : n < st.cur.buf.length := by
        obtain ⟨rfl, -⟩ := adv_ok hadv
        obtain ⟨m', hm⟩ := hE1
        obtain ⟨-, w', q', -, hw'⟩ := flowLazyLoop_last hx1 hvc (hm _ (Nat.lt_succ_self _))
        have := congrArg List.length hw'
        simp only [List.length_drop, List.length_append, List.length_cons] at this
        omega
      obtain ⟨rfl, hs⟩ := adv_grow ht (Nat.le_of_lt hlen) hadv
      refine ⟨hlen, hs, ?_⟩
      rw [hf2 ⟨st.cur.buf.drop n, st.cur.stats.update n 0 n⟩] at hrest
      refine ih ?_ ?_ ?_ ?_ hrest
      · rw [hf1]; exact hvc
      · intro hs
        rw [hf1, show (⟨st.cur.buf.drop n, st.cur.stats.update n 0 n⟩ : Cur).buf ++ t = (st.cur.buf ++ t).drop n from
          (List.drop_append_of_le_length (Nat.le_of_lt hlen)).symm]
        exact (hne hs).suf (Suf.drop _ _)
      · rw [hf1]; simp only [List.length_drop]; omega
      · rw [hf1]; exact hE1
    have hws : isBreak (st.cur.buf ++ t) = false := by
      rw [isBreak_grow hvs hnil]
      unfold isWhiteSpaceZ at hw
      cases hb : isBreak st.cur.buf with
      | false => rfl
      | true => rw [hb] at hw; simp at hw
    have hone : ∀ {c : Cur}, Cur.adv ⟨st.cur.buf ++ t, st.cur.stats⟩ 1 = .ok c →
        ¬ ((single && startsWith st.cur.buf 0x27) || (!single && startsWith st.cur.buf b! '"')) = true →
        ¬ (!single && [0x5C, b! '"'].isPrefixOf (st.cur.buf ++ t)) = true →
        LazyTo o1 single ⟨st.cur.buf ++ t, st.cur.stats⟩ c := by
      intro c hc hq hp
      have hvc := adv_valid hv hc
      obtain ⟨rfl, hbd⟩ := adv_ok hc
      obtain ⟨b, s, hbs⟩ := List.exists_cons_of_ne_nil hnil
      rw [hbs] at hq hp hbd hvc hws ⊢
      have hv' := hv
      rw [hbs] at hv'
      have hb := ascii_of_one hv' hbd
      exact lazy_byte hx1 hb (headOk_of_valid hvc) (noBrk_of hb hws) (by rw [startsWith_cons, startsWith_cons] at hq; exact hq) hp
    by_cases hq2 : (single && [0x27, 0x27].isPrefixOf (st.cur.buf ++ t)) = true
    · rw [if_pos hq2] at h
      obtain ⟨y, h1, h⟩ := bind_err (fun _ => noBorrow_noErr) h
      obtain ⟨st1, rfl, hc1, h1'⟩ := noBorrow_grow ht h1
      obtain ⟨c, hc, h⟩ := bind_err (fun _ => adv_noErr) h
      have hc' : Cur.adv ⟨st.cur.buf ++ t, st.cur.stats⟩ 2 = .ok c := by rw [← hc1]; exact hc
      obtain ⟨hlen, e1, e2⟩ := go (n := 2) (f := fun c => { st1 with cur := c, scratch := st1.scratch ++ [0x27] })
        (by omega) hc' (lazy_two hx1 (by rw [hq2]; rfl) hc') (fun _ => rfl) (fun _ => rfl) h
      rw [isPrefixOf_grow (p := [0x27, 0x27]) (by simp only [List.length_cons, List.length_nil]; omega)] at hq2
      rw [if_pos hq2, h1', Out.ok_bind, hc1, e1]
      exact e2
    have hq2' : ¬ (single && [0x27, 0x27].isPrefixOf st.cur.buf) = true := by
      intro hp
      apply hq2
      rw [Bool.and_eq_true] at hp ⊢
      refine ⟨hp.1, ?_⟩
      obtain ⟨r, hr⟩ := List.isPrefixOf_iff_prefix.1 hp.2
      rw [← hr]; simp
    rw [if_neg hq2] at h
    rw [if_neg hq2']
    by_cases hq : ((single && startsWith st.cur.buf 0x27) || (!single && startsWith st.cur.buf b! '"')) = true
    · rw [if_pos hq] at h; cases h
    rw [if_neg hq] at h ⊢
    by_cases hbs : (!single && startsWith st.cur.buf 0x5C) = true
    · have hs5 : startsWith st.cur.buf 0x5C = true := by
        rw [Bool.and_eq_true] at hbs; exact hbs.2
      have hsf : single = false := by
        rw [Bool.and_eq_true] at hbs; simpa using hbs.1
      have hlen2 : st.cur.buf.drop 1 ≠ [] := by
        intro h0
        obtain ⟨r, hr⟩ := startsWith_iff.1 hs5
        rw [hr, List.drop_succ_cons, List.drop_zero] at h0
        rw [hr, h0] at hwq
        cases w with
        | nil => injection hwq with hwq _; rcases hqq with rfl | rfl <;> cases hwq
        | cons x w => injection hwq with _ hwq; exact absurd (congrArg List.length hwq) (by simp)
      have hbk : isBreak ((st.cur.buf ++ t).drop 1) = isBreak (st.cur.buf.drop 1) := by
        rw [drop_grow hpos]
        refine isBreak_grow ?_ hlen2
        obtain ⟨r, hr⟩ := startsWith_iff.1 hs5
        rw [hr] at hvs ⊢
        exact valid_tail hvs (by decide)
      rw [hbk] at h
      by_cases hbr : (!single && startsWith st.cur.buf 0x5C && isBreak (st.cur.buf.drop 1)) = true
      · rw [if_pos hbr] at h ⊢
        obtain ⟨y, h1, h⟩ := bind_err (fun _ => noBorrow_noErr) h
        obtain ⟨st1, rfl, hc1, h1'⟩ := noBorrow_grow ht h1
        obtain ⟨c, hc, h⟩ := bind_err (fun _ => adv_noErr) h
        have hc' : Cur.adv ⟨st.cur.buf ++ t, st.cur.stats⟩ 1 = .ok c := by rw [← hc1]; exact hc
        have hlz := hone hc' hq (by
          intro hp
          rw [Bool.and_eq_true] at hp hbr
          obtain ⟨u, hu⟩ := List.isPrefixOf_iff_prefix.1 hp.2
          have := hbr.2
          rw [← hbk, ← hu] at this
          simp [isBreak] at this)
        obtain ⟨hlen, e1, e2⟩ := go (n := 1) (f := fun c => { st1 with cur := c, escapedBreak := some .Start })
          (by omega) hc' hlz (fun _ => rfl) (fun _ => rfl) h
        rw [h1', Out.ok_bind, hc1, e1]
        exact e2
      · rw [if_neg hbr, if_pos hbs] at h ⊢
        obtain ⟨y, h1, h⟩ := bind_err (fun _ => noBorrow_noErr) h
        obtain ⟨st1, rfl, hc1, h1'⟩ := noBorrow_grow ht h1
        rw [h1', Out.ok_bind, hc1]
        have hcg : (FlowSt.grow t st1).cur = ⟨st.cur.buf ++ t, st.cur.stats⟩ := by rw [← hc1]; rfl
        rw [hcg] at h
        rcases Out.bind_eq_err.1 h with h | ⟨⟨v, n⟩, hun, h⟩
        · simp only at h
          rw [hwq] at h hs5 ⊢
          rw [flowUnescape_err hx hx' hqq hs5 h]; rfl
        · obtain ⟨c, hc, h⟩ := bind_err (fun _ => adv_noErr) h
          have hn2 := flowUnescape_two hx (by rw [startsWith_grow hnil]; exact hs5) hun
          subst hsf
          have hlz := lazy_escape hx1 (m := st.cur.stats) (by rw [startsWith_grow hnil]; exact hs5) (hne rfl) hv hun hx hc
          obtain ⟨hlen, e1, e2⟩ := go (n := n) (f := fun c => { st1 with cur := c, scratch := st1.scratch ++ v })
            (by omega) hc hlz (fun _ => rfl) (fun _ => rfl) h
          rw [flowUnescape_grow hx hx' hs5 hun (Nat.le_of_lt hlen), Out.ok_bind]
          simp only
          rw [e1]
          exact e2
    · have hbr : ∀ z : Bool, ¬ (!single && startsWith st.cur.buf 0x5C && z) = true := by
        intro z hz; rw [Bool.and_eq_true] at hz; exact hbs hz.1
      rw [if_neg (hbr _), if_neg hbs] at h ⊢
      obtain ⟨y, h1, h⟩ := bind_err (fun _ => push_noErr) h
      obtain ⟨c, hc, hc2⟩ := push_cur h1
      have hlz := hone hc hq (by
        intro hp
        apply hbs
        rw [Bool.and_eq_true] at hp ⊢
        refine ⟨hp.1, ?_⟩
        obtain ⟨u, hu⟩ := List.isPrefixOf_iff_prefix.1 hp.2
        rw [← startsWith_grow hnil (t := t), ← hu]; rfl)
      have hE1 := hE.step hx1 hlz (adv_valid hv hc)
      obtain ⟨st1, rfl, h1', hc1⟩ := push_grow ht hpos h1
      have hcc : c = ⟨st1.cur.buf ++ t, st1.cur.stats⟩ := by rw [← hc2]; rfl
      rw [h1', Out.ok_bind]
      have hvc := adv_valid hv hc
      rw [hcc] at hvc hE1
      refine ih hvc (fun hs => ?_) ?_ hE1 h
      · rw [hc1, show (⟨st.cur.buf.drop 1, st.cur.stats.update 1 0 1⟩ : Cur).buf ++ t = (st.cur.buf ++ t).drop 1 from
          (List.drop_append_of_le_length hpos).symm]
        exact (hne hs).suf (Suf.drop _ _)
      · rw [hc1]; simp only [List.length_drop]; omega

/-- A marker in a longer text is one before the quote. -/
theorem marker_forth {w : Str} {q : Byte} {col : Nat} (hv : validUtf8 (w ++ [q]) = true) (hq : q = 0x27 ∨ q = b! '"')
    (h : isDocumentIndicator (w ++ [q] ++ t) col = true) : isDocumentIndicator (w ++ [q]) col = true := by
  unfold isDocumentIndicator at h ⊢
  simp only [Bool.and_eq_true] at h ⊢
  obtain ⟨⟨h1, h2⟩, h3⟩ := h
  obtain ⟨a, r, ha, hr⟩ := startsMarker_three h2
  have hqa : q ≠ a := by rcases hq with rfl | rfl <;> rcases ha with rfl | rfl <;> decide
  match w, hv, hr, h2, h3 with
  | [], _, hr, _, _ => injection hr with hr _; exact absurd hr hqa
  | [_], _, hr, _, _ => injection hr with _ hr; injection hr with hr _; exact absurd hr hqa
  | [_, _], _, hr, _, _ => injection hr with _ hr; injection hr with _ hr; injection hr with hr _; exact absurd hr hqa
  | x :: y :: z :: w, hv, hr, h2, h3 =>
    rw [startsMarker_grow (by simp)] at h2
    refine ⟨⟨h1, h2⟩, ?_⟩
    simp only [List.cons_append, List.cons.injEq] at hr
    obtain ⟨rfl, rfl, rfl, -⟩ := hr
    simp only [List.cons_append, List.drop_succ_cons, List.drop_zero] at h3 hv ⊢
    rw [isWhiteSpaceZ_grow ?_ (by simp)] at h3
    · exact h3
    · have ha : z < 128 := by rcases ha with rfl | rfl <;> decide
      exact valid_tail (valid_tail (valid_tail hv ha) ha) ha

include hx hx' hx1 ht in
theorem flowLoop_err {base : Str} {single : Bool} {fuel fuel' : Nat} {st : FlowSt} {e : ScanError}
    (hv : validUtf8 (st.cur.buf ++ t) = true) (hne : single = false → NoEsc (st.cur.buf ++ t)) (hf : st.cur.buf.length < fuel')
    (hb : st.cur.buf.length ≤ base.length) (hE : Ends o1 single ⟨st.cur.buf ++ t, st.cur.stats⟩ t)
    (h : flowLoop o (base ++ t) single fuel (FlowSt.grow t st) = .err e) : flowLoop o' base single fuel' st = .err e := by
  induction fuel generalizing fuel' st with
  | zero => cases h
  | succ fuel ih =>
    obtain ⟨fuel', rfl⟩ : ∃ k, fuel' = k + 1 := ⟨fuel' - 1, by omega⟩
    have hgb : (FlowSt.grow t st).cur.buf = st.cur.buf ++ t := rfl
    obtain ⟨w, q, hqq, hwq⟩ := hE.last hx1 hv
    have hvs : validUtf8 st.cur.buf = true := valid_before hv ht
    have hnil : st.cur.buf ≠ [] := by rw [hwq]; simp
    rw [flowLoop, cache_whole o hx, Out.ok_bind, cache_whole o hx, Out.ok_bind] at h
    rw [flowLoop, cache_whole o' hx', Out.ok_bind, cache_whole o' hx', Out.ok_bind]
    by_cases hd : isDocumentIndicator (FlowSt.grow t st).cur.buf (FlowSt.grow t st).cur.stats.column = true
    · rw [if_pos hd] at h
      have hd' : isDocumentIndicator st.cur.buf st.cur.stats.column = true := by
        rw [hgb] at hd
        rw [hwq] at hvs hd ⊢
        exact marker_forth hvs hqq hd
      rw [if_pos hd']; exact h
    have hd' : ¬ isDocumentIndicator st.cur.buf st.cur.stats.column = true := by
      intro h'
      apply hd
      rw [hgb]
      rw [hwq] at hvs h' ⊢
      exact marker_back hvs hqq h'
    rw [if_neg hd, hgb, isEmpty_grow hnil] at h
    rw [if_neg hd']
    have he : ¬ st.cur.buf.isEmpty = true := by simpa using hnil
    rw [if_neg he] at h ⊢
    -- what is left after a step is longer than the rest
    have long : ∀ {c : Cur}, validUtf8 c.buf = true → Ends o1 single c t → t.length < c.buf.length := by
      intro c hvc hE1
      obtain ⟨m', hm⟩ := hE1
      obtain ⟨-, w', q', -, hw'⟩ := flowLazyLoop_last hx1 hvc (hm _ (Nat.lt_succ_self _))
      rw [hw']; simp; omega
    rcases Out.bind_eq_err.1 h with h | ⟨⟨d, y⟩, h1, h⟩
    · have := flowWord_err hx hx' ht hx1 (st := { st with escapedBreak := none }) (fuel' := base.length + 1) hv hne
        (show st.cur.buf.length < _ by omega) hE h
      rw [this]; rfl
    obtain ⟨l1, v1, -⟩ := flowWord_lazy hx1 hx (st := { FlowSt.grow t st with escapedBreak := none }) hv hne h1
    have s1 := flowWord_suf hx h1
    have hE1 := Ends.step (c := (FlowSt.grow t st).cur) hx1 l1 v1 hE
    obtain ⟨st1, rfl, hv1, h1'⟩ := flowWord_back hx hx' ht (st := { st with escapedBreak := none }) (fuel' := base.length + 1)
      hvs (show st.cur.buf.length < _ by omega) h1 (long v1 hE1)
    have l1' := (flowWord_suf hx' h1').length
    rw [h1', Out.ok_bind]
    simp only at h l1' s1 ⊢
    by_cases hd : d = true
    · rw [if_pos hd] at h; cases h
    rw [if_neg hd] at h ⊢
    obtain ⟨y2, h2, h⟩ := bind_err (fun _ => flowSpace_noErr hx) h
    obtain ⟨y3, h3, h⟩ := bind_err (fun _ => flowJoin_noErr) h
    obtain ⟨l2, v2⟩ := flowSpace_lazy hx1 hx (single := single) (st := { FlowSt.grow t st1 with whitespace := 0, lines := 0 }) v1 h2
    have s2 := flowSpace_suf hx h2
    have hE2 := Ends.step (c := (FlowSt.grow t st1).cur) hx1 l2 v2 hE1
    obtain ⟨st2, rfl, hv2, h2'⟩ := flowSpace_back hx hx' ht (st := { st1 with whitespace := 0, lines := 0 }) (fuel' := base.length + 1)
      hv1 (show st1.cur.buf.length < _ by omega) h2 (long v2 hE2)
    have l2' := (flowSpace_suf hx' h2').length
    obtain ⟨st3, rfl, hc3, h3'⟩ := flowJoin_back ht h3
    rw [h2', Out.ok_bind, h3', Out.ok_bind]
    simp only at l2' s2
    have l3 : st3.cur.buf.length < st.cur.buf.length := by
      have hd : d = false := by simpa using hd
      subst hd
      have hz := flowWord_ws hx' h1'
      have hn1 : st1.cur.buf ≠ [] := by
        intro h0
        have := long v1 hE1
        have h4 : (FlowSt.grow t st1).cur.buf = t := by show st1.cur.buf ++ t = t; rw [h0]; rfl
        rw [h4] at this; omega
      have hz : isWhiteSpace st1.cur.buf = true := by
        unfold isWhiteSpaceZ at hz
        unfold isWhiteSpace
        cases h6 : st1.cur.buf with
        | nil => exact absurd h6 hn1
        | cons => rw [h6] at hz; simpa using hz
      have := flowSpace_lt hx' h2' hz
      rw [hc3]
      simp only at this
      omega
    have hg3 : (FlowSt.grow t st2).cur = ⟨st3.cur.buf ++ t, st3.cur.stats⟩ := by rw [hc3]; rfl
    rw [hg3] at v2 hE2
    refine ih v2 (fun hs => ?_) (by omega) (by omega) hE2 h
    refine (hne hs).suf ?_
    have : Suf (st.cur.buf ++ t) (FlowSt.grow t st2).cur.buf := Suf.trans s1 s2
    rw [hg3] at this
    exact this

include hx hx' in
/-- The error of a quoted scalar that is scanned without evaluation comes when it is evaluated. -/
theorem scanFlow_err {single : Bool} {c c2 : Cur} {l : Lazy} {e : ScanError} (hv : validUtf8 c.buf = true)
    (hne : single = false → NoEsc c.buf) (h : scanFlowEager o' single c = .err e) (h' : scanFlowLazy o single c = .ok (l, c2)) :
    l.intoToken = .err e := by
  unfold scanFlowEager at h
  unfold scanFlowLazy at h'
  rw [cache_whole o hx, Out.ok_bind] at h'
  rw [cache_whole o' hx', Out.ok_bind] at h
  obtain ⟨c1, h1, h⟩ := bind_err (fun _ => adv_noErr) h
  rw [h1, Out.ok_bind] at h'
  obtain ⟨c3, h2, h'⟩ := Out.bind_eq_ok.1 h'
  obtain ⟨p', h3, h'⟩ := Out.bind_eq_ok.1 h'
  injection h' with h'; injection h' with hl h'; subst h' hl
  have hloop : flowLoop o' c.buf single (c.buf.length + 1) { cur := c1 } = .err e := by
    rcases Out.bind_eq_err.1 h with h | ⟨st, -, h⟩
    · exact h
    obtain ⟨_, -, h⟩ := bind_err (fun _ => flowSlice_noErr) h
    rw [cache_whole o' hx', Out.ok_bind] at h
    obtain ⟨_, -, h⟩ := bind_err (fun _ => adv_noErr) h
    cases h
  have v1 := adv_valid hv h1
  have e1 := (adv_ok h1).1
  obtain ⟨v3, w, q, hq, hw⟩ := flowLazyLoop_last hx v1 h2
  have hh3 := headOk_of_valid v3
  have hE : Ends o single c1 c3.buf := by
    refine ⟨c3.stats, fun f hf => ?_⟩
    rw [flowLazyLoop_fuel hx v1 hf (f' := c.buf.length + 1), h2]
    rw [e1]; simp only [List.length_drop]; omega
  obtain ⟨p, hp⟩ : ∃ p, c.buf = p ++ c3.buf := by
    obtain ⟨w', hw'⟩ := Suf.drop c.buf 1
    rw [e1] at hw
    simp only at hw
    exact ⟨w' ++ w ++ [q], by rw [hw', hw]; simp⟩
  have hplen : 1 ≤ p.length := by
    have := congrArg List.length hw
    rw [e1, hp] at this
    simp at this
    omega
  rw [hp, slice_front hh3] at h3
  injection h3 with h3; subst h3
  have vp : validUtf8 p = true := valid_before (by rw [← hp]; exact hv) hh3
  have hcb : c = ⟨p ++ c3.buf, c.stats⟩ := by rw [← hp]
  rw [hcb] at h1
  obtain ⟨e1', h1'⟩ := adv_grow hh3 hplen h1
  rw [hp] at hloop
  have hst : ({ cur := c1 } : FlowSt) = FlowSt.grow c3.buf { cur := ⟨p.drop 1, c.stats.update 1 0 1⟩ } := by
    rw [e1']; rfl
  rw [hst] at hloop
  rw [e1'] at v1 hE
  have := flowLoop_err hx' (o' := { o with extendable := false }) rfl hh3 hx (fuel' := p.length + 1)
    (st := { cur := ⟨p.drop 1, c.stats.update 1 0 1⟩ }) v1
    (fun hs => by
      have : Suf c.buf (p.drop 1 ++ c3.buf) := by
        rw [hp]; exact ⟨p.take 1, by rw [← List.append_assoc, List.take_append_drop]⟩
      exact (hne hs).suf this)
    (by simp only [List.length_drop]; omega) (by simp only [List.length_drop]; omega) hE hloop
  unfold Lazy.intoToken scanFlowEager
  simp only
  rw [cache_whole { o with extendable := false } rfl, Out.ok_bind, h1', Out.ok_bind, this, Out.err_bind, Out.err_bind]

end Yary.Deferred
