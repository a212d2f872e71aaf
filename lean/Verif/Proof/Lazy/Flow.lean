import Verif.Proof.Lazy.Base

/-! # Quoted scalars, scanned alone -/

namespace Yary.Deferred

open Chunk Spec

variable {o o' : SFlags} {t : Str} (hx : o.extendable = false) (hx' : o'.extendable = false) (ht : HeadOk t)

theorem noBorrow_cur {base : Str} {st st' : FlowSt} (h : st.noBorrow base = .ok st') : st'.cur = st.cur := by
  unfold FlowSt.noBorrow at h
  split at h
  · obtain ⟨s, -, h⟩ := Out.bind_eq_ok.1 h
    injection h with h; subst h; rfl
  · injection h with h; subst h; rfl

theorem push_cur {st st' : FlowSt} (h : st.push = .ok st') : ∃ c, st.cur.adv 1 = .ok c ∧ st'.cur = c := by
  unfold FlowSt.push at h
  obtain ⟨c, hc, h⟩ := Out.bind_eq_ok.1 h
  injection h with h; subst h; exact ⟨c, hc, rfl⟩

include ht in
theorem noBorrow_grow {base : Str} {st x : FlowSt} (h : (FlowSt.grow t st).noBorrow (base ++ t) = .ok x) :
    ∃ st', x = FlowSt.grow t st' ∧ st'.cur = st.cur ∧ st.noBorrow base = .ok st' := by
  have hl : (base ++ t).length - (FlowSt.grow t st).cur.buf.length = base.length - st.cur.buf.length := by
    simp only [FlowSt.grow, List.length_append]; omega
  unfold FlowSt.noBorrow at h ⊢
  rw [hl, slice_grow ht (by omega)] at h
  by_cases hb : st.canBorrow = true
  · rw [if_pos hb]
    rw [if_pos (show (FlowSt.grow t st).canBorrow = true from hb)] at h
    obtain ⟨s, hs, h⟩ := Out.bind_eq_ok.1 h
    injection h with h
    subst h
    exact ⟨{ st with scratch := st.scratch ++ s, canBorrow := false }, rfl, rfl, by rw [hs]; rfl⟩
  · rw [if_neg hb]
    rw [if_neg (show ¬ (FlowSt.grow t st).canBorrow = true from hb)] at h
    injection h with h
    subst h
    exact ⟨st, rfl, rfl, rfl⟩

include ht in
theorem push_grow {st x : FlowSt} (hn : 1 ≤ st.cur.buf.length) (h : (FlowSt.grow t st).push = .ok x) :
    ∃ st', x = FlowSt.grow t st' ∧ st.push = .ok st' ∧
      st'.cur = ⟨st.cur.buf.drop 1, st.cur.stats.update 1 0 1⟩ := by
  unfold FlowSt.push at h ⊢
  obtain ⟨c, hc, h⟩ := Out.bind_eq_ok.1 h
  obtain ⟨rfl, hs⟩ := adv_grow ht (s := st.cur.buf) (m := st.cur.stats) hn hc
  injection h with h
  subst h
  have hs : st.cur.adv 1 = _ := hs
  rw [hs]
  refine ⟨_, ?_, rfl, rfl⟩
  simp only [FlowSt.grow]
  rw [take_grow hn]
  rfl

include hx in
/-- What a word leaves is a suffix. -/
theorem flowWord_suf {base : Str} {single : Bool} {fuel : Nat} {st x : FlowSt} {d : Bool}
    (h : flowWord o base single fuel st = .ok (d, x)) : Suf st.cur.buf x.cur.buf := by
  induction fuel generalizing st with
  | zero => cases h
  | succ fuel ih =>
    rw [flowWord] at h
    by_cases hw : isWhiteSpaceZ st.cur.buf = true
    · rw [if_pos hw] at h
      injection h with h; injection h with _ h; subst h; exact .refl _
    rw [if_neg hw, cache_whole o hx, Out.ok_bind] at h
    have go : ∀ {c' n} {st1 : FlowSt}, st.cur.adv n = .ok c' → st1.cur = c' →
        flowWord o base single fuel st1 = .ok (d, x) → Suf st.cur.buf x.cur.buf := by
      intro c' n st1 hc h1 h2
      obtain ⟨rfl, -⟩ := adv_ok hc
      have := ih h2
      rw [h1] at this
      exact (Suf.drop _ _).trans this
    split at h
    · obtain ⟨st1, h1, h⟩ := Out.bind_eq_ok.1 h
      obtain ⟨c, hc, h⟩ := Out.bind_eq_ok.1 h
      exact go (by rw [← noBorrow_cur h1]; exact hc) rfl h
    split at h
    · injection h with h; injection h with _ h; subst h; exact .refl _
    split at h
    · obtain ⟨st1, h1, h⟩ := Out.bind_eq_ok.1 h
      obtain ⟨c, hc, h⟩ := Out.bind_eq_ok.1 h
      exact go (by rw [← noBorrow_cur h1]; exact hc) rfl h
    split at h
    · obtain ⟨st1, h1, h⟩ := Out.bind_eq_ok.1 h
      obtain ⟨⟨w, n⟩, -, h⟩ := Out.bind_eq_ok.1 h
      obtain ⟨c, hc, h⟩ := Out.bind_eq_ok.1 h
      exact go (by rw [← noBorrow_cur h1]; exact hc) rfl h
    · obtain ⟨st1, h1, h⟩ := Out.bind_eq_ok.1 h
      obtain ⟨c, hc, h2⟩ := push_cur h1
      exact go hc h2 h

include hx in
theorem flowSpace_suf {base : Str} {fuel : Nat} {st x : FlowSt}
    (h : flowSpace o base fuel st = .ok x) : Suf st.cur.buf x.cur.buf := by
  induction fuel generalizing st with
  | zero => cases h
  | succ fuel ih =>
    rw [flowSpace, cache_whole o hx, Out.ok_bind] at h
    split at h
    · obtain ⟨st1, h1, h⟩ := Out.bind_eq_ok.1 h
      obtain ⟨c, hc, h2⟩ := push_cur h1
      have := ih h
      obtain ⟨rfl, -⟩ := adv_ok hc
      simp only at this
      rw [h2] at this
      exact (Suf.drop _ _).trans this
    split at h
    · obtain ⟨st1, h1, h⟩ := Out.bind_eq_ok.1 h
      obtain ⟨c, hc, h⟩ := Out.bind_eq_ok.1 h
      have := ih h
      obtain ⟨rfl, -⟩ := line_ok hc
      rw [noBorrow_cur h1] at this
      exact (Suf.drop _ _).trans this
    · injection h with h; subst h; exact .refl _

include hx in
/-- White space is read. -/
theorem flowSpace_lt {base : Str} {fuel : Nat} {st x : FlowSt} (h : flowSpace o base fuel st = .ok x)
    (hw : isWhiteSpace st.cur.buf = true) : x.cur.buf.length < st.cur.buf.length := by
  cases fuel with
  | zero => cases h
  | succ fuel =>
    rw [flowSpace, cache_whole o hx, Out.ok_bind] at h
    split at h
    · rename_i hb
      obtain ⟨st1, h1, h⟩ := Out.bind_eq_ok.1 h
      obtain ⟨c, hc, h2⟩ := push_cur h1
      have := (flowSpace_suf hx h).length
      obtain ⟨rfl, -⟩ := adv_ok hc
      simp only at this
      rw [h2] at this
      obtain ⟨b, r, hr, -⟩ := isBlank_iff.1 hb
      rw [hr] at this ⊢
      simp at this ⊢
      omega
    split at h
    · rename_i hb
      obtain ⟨st1, h1, h⟩ := Out.bind_eq_ok.1 h
      obtain ⟨c, hc, h⟩ := Out.bind_eq_ok.1 h
      have := (flowSpace_suf hx h).length
      obtain ⟨rfl, -⟩ := line_ok hc
      rw [noBorrow_cur h1] at this
      simp only [List.length_drop] at this
      have := breakLen_pos.2 hb
      have := breakLen_le st.cur.buf
      omega
    · rename_i h1 h2
      simp [isWhiteSpace, h1, h2] at hw

include hx in
/-- A word that did not end at the quote ended at white space. -/
theorem flowWord_ws {base : Str} {single : Bool} {fuel : Nat} {st x : FlowSt}
    (h : flowWord o base single fuel st = .ok (false, x)) : isWhiteSpaceZ x.cur.buf = true := by
  induction fuel generalizing st with
  | zero => cases h
  | succ fuel ih =>
    rw [flowWord] at h
    by_cases hw : isWhiteSpaceZ st.cur.buf = true
    · rw [if_pos hw] at h
      injection h with h; injection h with _ h; subst h; exact hw
    rw [if_neg hw, cache_whole o hx, Out.ok_bind] at h
    split at h
    · obtain ⟨st1, h1, h⟩ := Out.bind_eq_ok.1 h
      obtain ⟨c, hc, h⟩ := Out.bind_eq_ok.1 h
      exact ih h
    split at h
    · injection h with h; injection h with h _; cases h
    split at h
    · obtain ⟨st1, h1, h⟩ := Out.bind_eq_ok.1 h
      obtain ⟨c, hc, h⟩ := Out.bind_eq_ok.1 h
      exact ih h
    split at h
    · obtain ⟨st1, h1, h⟩ := Out.bind_eq_ok.1 h
      obtain ⟨⟨w, n⟩, -, h⟩ := Out.bind_eq_ok.1 h
      obtain ⟨c, hc, h⟩ := Out.bind_eq_ok.1 h
      exact ih h
    · obtain ⟨st1, h1, h⟩ := Out.bind_eq_ok.1 h
      exact ih h

theorem flowJoin_cur {base : Str} {st x : FlowSt} (h : flowJoin base st = .ok x) : x.cur = st.cur := by
  unfold flowJoin at h
  split at h
  · injection h with h; subst h; rfl
  · obtain ⟨st1, h1, h⟩ := Out.bind_eq_ok.1 h
    obtain ⟨s, -, h⟩ := Out.bind_eq_ok.1 h
    injection h with h; subst h; exact noBorrow_cur (st' := st1) h1
  · obtain ⟨st1, h1, h⟩ := Out.bind_eq_ok.1 h
    obtain ⟨s, -, h⟩ := Out.bind_eq_ok.1 h
    injection h with h; subst h; exact noBorrow_cur (st' := st1) h1

include hx in
theorem flowLoop_suf {base : Str} {single : Bool} {fuel : Nat} {st x : FlowSt}
    (h : flowLoop o base single fuel st = .ok x) : Suf st.cur.buf x.cur.buf := by
  induction fuel generalizing st with
  | zero => cases h
  | succ fuel ih =>
    rw [flowLoop, cache_whole o hx, Out.ok_bind] at h
    split at h
    · cases h
    split at h
    · cases h
    rw [cache_whole o hx, Out.ok_bind] at h
    obtain ⟨⟨d, st1⟩, h1, h⟩ := Out.bind_eq_ok.1 h
    have s1 := flowWord_suf hx h1
    simp only at h s1
    split at h
    · injection h with h; subst h; exact s1
    obtain ⟨st2, h2, h⟩ := Out.bind_eq_ok.1 h
    obtain ⟨st3, h3, h⟩ := Out.bind_eq_ok.1 h
    have s2 := flowSpace_suf hx h2
    have s3 := ih h
    rw [flowJoin_cur h3] at s3
    exact (s1.trans s2).trans s3

theorem readHex_grow {n v r : Nat} {s : Str} (hn : n ≤ s.length) (h : readHex n v (s ++ t) = .ok r) :
    readHex n v s = .ok r := by
  induction n generalizing v s with
  | zero => exact h
  | succ n ih =>
    cases s with
    | nil => simp at hn
    | cons b s =>
      rw [List.cons_append, readHex] at h
      rw [readHex]
      split at h
      · rename_i hb; rw [if_pos hb]; exact ih (by simpa using hn) h
      · cases h

include hx hx' in
theorem flowUnescape_grow {s w : Str} {n : Nat} (hs : startsWith s 0x5C = true) (h : flowUnescape o (s ++ t) = .ok (w, n))
    (hn : n ≤ s.length) : flowUnescape o' s = .ok (w, n) := by
  obtain ⟨r, rfl⟩ := startsWith_iff.1 hs
  unfold flowUnescape at h ⊢
  simp only [cache_whole o hx, cache_whole o' hx', Out.ok_bind] at h ⊢
  have h5 : startsWith (0x5C :: r) 0x5C = true := rfl
  have h5' : startsWith (0x5C :: r ++ t) 0x5C = true := rfl
  rw [h5'] at h
  rw [h5]
  simp only [Bool.not_true, Bool.false_eq_true, if_false, List.cons_append, List.drop_succ_cons, List.drop_zero] at h ⊢
  cases r with
  | nil =>
    exfalso
    cases hk : escapeKind ([] ++ t) with
    | eof => rw [hk] at h; cases h
    | unknown => rw [hk] at h; cases h
    | bytes w => rw [hk] at h; injection h with h; injection h with _ h; subst h; simp at hn
    | code k =>
      rw [hk] at h
      obtain ⟨v, -, h⟩ := Out.bind_eq_ok.1 h
      injection h with h; injection h with _ h; subst h; simp at hn; omega
  | cons b r =>
    have hk : escapeKind (b :: r ++ t) = escapeKind (b :: r) := rfl
    rw [hk] at h
    cases hk : escapeKind (b :: r) with
    | eof => rw [hk] at h; cases h
    | unknown => rw [hk] at h; cases h
    | bytes w => rw [hk] at h; exact h
    | code k =>
      rw [hk] at h
      simp only [List.cons_append, List.drop_succ_cons, List.drop_zero] at h ⊢
      obtain ⟨v, hv, h⟩ := Out.bind_eq_ok.1 h
      have hn' : k ≤ r.length := by
        injection h with h; injection h with _ h; subst h; simp at hn; omega
      rw [readHex_grow hn' hv]
      exact h

theorem two_le {s : Str} (h1 : s ≠ []) (h2 : s.length ≠ 1) : 2 ≤ s.length := by
  cases s with
  | nil => exact absurd rfl h1
  | cons b s => cases s with
    | nil => simp at h2
    | cons => simp

theorem flowUnescape_two {s w : Str} {n : Nat} (hx : o.extendable = false) (hs : startsWith s 0x5C = true)
    (h : flowUnescape o s = .ok (w, n)) : 2 ≤ n := by
  unfold flowUnescape at h
  simp only [cache_whole o hx, Out.ok_bind] at h
  rw [hs] at h
  simp only [Bool.not_true, Bool.false_eq_true, if_false] at h
  cases hk : escapeKind (s.drop 1) with
  | eof => rw [hk] at h; cases h
  | unknown => rw [hk] at h; cases h
  | bytes w => rw [hk] at h; injection h with h; injection h with _ h; omega
  | code k =>
    rw [hk] at h
    obtain ⟨v, -, h⟩ := Out.bind_eq_ok.1 h
    injection h with h; injection h with _ h; omega

include hx hx' ht in
/-- A word of a quoted scalar, scanned without what follows the scalar. -/
theorem flowWord_back {base : Str} {single : Bool} {fuel fuel' : Nat} {st x : FlowSt} {d : Bool}
    (hv : validUtf8 st.cur.buf = true) (hf : st.cur.buf.length < fuel')
    (h : flowWord o (base ++ t) single fuel (FlowSt.grow t st) = .ok (d, x)) (hl : t.length < x.cur.buf.length) :
    ∃ st', x = FlowSt.grow t st' ∧ validUtf8 st'.cur.buf = true ∧ flowWord o' base single fuel' st = .ok (d, st') := by
  induction fuel generalizing fuel' st with
  | zero => cases h
  | succ fuel ih =>
    obtain ⟨fuel', rfl⟩ : ∃ k, fuel' = k + 1 := ⟨fuel' - 1, by omega⟩
    have hgb : (FlowSt.grow t st).cur.buf = st.cur.buf ++ t := rfl
    have hsuf := (flowWord_suf hx h).length
    rw [hgb, List.length_append] at hsuf
    have hne : st.cur.buf ≠ [] := by
      intro hn; rw [hn] at hsuf; simp at hsuf; omega
    have hpos : 1 ≤ st.cur.buf.length := List.length_pos_iff.2 hne
    rw [flowWord] at h ⊢
    rw [hgb, isWhiteSpaceZ_grow hv hne, startsWith_grow hne, startsWith_grow hne, startsWith_grow hne,
      cache_whole o hx, Out.ok_bind] at h
    rw [cache_whole o' hx', Out.ok_bind]
    by_cases hw : isWhiteSpaceZ st.cur.buf = true
    · rw [if_pos hw] at h ⊢
      injection h with h; injection h with hd h; subst h; subst hd
      exact ⟨st, rfl, hv, rfl⟩
    rw [if_neg hw] at h ⊢
    -- after a step of `n` bytes
    have go : ∀ {n : Nat} {c : Cur} {st1 : FlowSt} {f : Cur → FlowSt}, 1 ≤ n → st1.cur = st.cur →
        Cur.adv ⟨st.cur.buf ++ t, st.cur.stats⟩ n = .ok c →
        (∀ c, (f c).cur = c) → (∀ c, f ⟨c.buf ++ t, c.stats⟩ = FlowSt.grow t (f c)) →
        flowWord o (base ++ t) single fuel (f c) = .ok (d, x) →
        n < st.cur.buf.length ∧
        (st1.cur.adv n >>= fun c => flowWord o' base single fuel' (f c)) =
          flowWord o' base single fuel' (f ⟨st.cur.buf.drop n, st.cur.stats.update n 0 n⟩) ∧
        ∃ st', x = FlowSt.grow t st' ∧ validUtf8 st'.cur.buf = true ∧
          (st1.cur.adv n >>= fun c => flowWord o' base single fuel' (f c)) = .ok (d, st') := by
      intro n c st1 f h1 hc hadv hf1 hf2 hrest
      have hsuf := (flowWord_suf hx hrest).length
      rw [hf1] at hsuf
      have hlen : n < st.cur.buf.length := by
        obtain ⟨rfl, -⟩ := adv_ok hadv
        simp only [List.length_drop, List.length_append] at hsuf
        omega
      obtain ⟨rfl, hs⟩ := adv_grow ht (Nat.le_of_lt hlen) hadv
      have hs' : st1.cur.adv n = .ok ⟨st.cur.buf.drop n, st.cur.stats.update n 0 n⟩ := by rw [hc]; exact hs
      rw [hs']
      refine ⟨hlen, rfl, ?_⟩
      rw [hf2 ⟨st.cur.buf.drop n, st.cur.stats.update n 0 n⟩] at hrest
      refine ih ?_ ?_ hrest
      · rw [hf1]; exact adv_valid (c := ⟨st.cur.buf, st.cur.stats⟩) hv hs
      · rw [hf1]; simp only [List.length_drop]; omega
    by_cases hq2 : (single && [0x27, 0x27].isPrefixOf (st.cur.buf ++ t)) = true
    · rw [if_pos hq2] at h
      obtain ⟨y, h1, h⟩ := Out.bind_eq_ok.1 h
      obtain ⟨st1, rfl, hc1, h1'⟩ := noBorrow_grow ht h1
      obtain ⟨c, hc, h⟩ := Out.bind_eq_ok.1 h
      obtain ⟨hlen, -, st', e1, e2, e3⟩ := go (n := 2) (st1 := st1) (f := fun c => { st1 with cur := c, scratch := st1.scratch ++ [0x27] })
        (by omega) hc1 (by rw [← hc1]; exact hc) (fun _ => rfl) (fun _ => rfl) h
      rw [isPrefixOf_grow (p := [0x27, 0x27]) (by simp only [List.length_cons, List.length_nil]; omega)] at hq2
      rw [if_pos hq2, h1']
      exact ⟨st', e1, e2, e3⟩
    have hq2' : ¬ (single && [0x27, 0x27].isPrefixOf st.cur.buf) = true := by
      intro hp
      apply hq2
      rw [Bool.and_eq_true] at hp ⊢
      refine ⟨hp.1, ?_⟩
      obtain ⟨r, hr⟩ := List.isPrefixOf_iff_prefix.1 hp.2
      rw [← hr]; simp
    rw [if_neg hq2] at h
    rw [if_neg hq2']
    by_cases hq : ((single && startsWith st.cur.buf 0x27) || (!single && startsWith st.cur.buf b! '"')) = true
    · rw [if_pos hq] at h ⊢
      injection h with h; injection h with hd h; subst h; subst hd
      exact ⟨st, rfl, hv, rfl⟩
    rw [if_neg hq] at h ⊢
    by_cases hbs : (!single && startsWith st.cur.buf 0x5C) = true
    · have hs5 : startsWith st.cur.buf 0x5C = true := by
        rw [Bool.and_eq_true] at hbs; exact hbs.2
      by_cases hbr : (!single && startsWith st.cur.buf 0x5C && isBreak ((st.cur.buf ++ t).drop 1)) = true
      · rw [if_pos hbr] at h
        obtain ⟨y, h1, h⟩ := Out.bind_eq_ok.1 h
        obtain ⟨st1, rfl, hc1, h1'⟩ := noBorrow_grow ht h1
        obtain ⟨c, hc, h⟩ := Out.bind_eq_ok.1 h
        obtain ⟨hlen, -, st', e1, e2, e3⟩ := go (n := 1) (st1 := st1) (f := fun c => { st1 with cur := c, escapedBreak := some .Start })
          (by omega) hc1 (by rw [← hc1]; exact hc) (fun _ => rfl) (fun _ => rfl) h
        have hbr' : (!single && startsWith st.cur.buf 0x5C && isBreak (st.cur.buf.drop 1)) = true := by
          rw [drop_grow hpos] at hbr
          rw [isBreak_grow ?_ ?_] at hbr
          · exact hbr
          · obtain ⟨r, hr⟩ := startsWith_iff.1 hs5
            rw [hr] at hv ⊢
            exact valid_tail hv (by decide)
          · intro h0; have := congrArg List.length h0; simp at this; omega
        rw [if_pos hbr', h1']
        exact ⟨st', e1, e2, e3⟩
      · rw [if_neg hbr, if_pos hbs] at h
        obtain ⟨y, h1, h⟩ := Out.bind_eq_ok.1 h
        obtain ⟨st1, rfl, hc1, h1'⟩ := noBorrow_grow ht h1
        obtain ⟨⟨w, n⟩, hun, h⟩ := Out.bind_eq_ok.1 h
        obtain ⟨c, hc, h⟩ := Out.bind_eq_ok.1 h
        have hun : flowUnescape o (st.cur.buf ++ t) = .ok (w, n) := by
          rw [← hc1]; exact hun
        have hn2 := flowUnescape_two hx (by rw [startsWith_grow hne]; exact hs5) hun
        obtain ⟨hlen, -, st', e1, e2, e3⟩ := go (n := n) (st1 := st1) (f := fun c => { st1 with cur := c, scratch := st1.scratch ++ w })
          (by omega) hc1 (by rw [← hc1]; exact hc) (fun _ => rfl) (fun _ => rfl) h
        have hbr' : ¬ (!single && startsWith st.cur.buf 0x5C && isBreak (st.cur.buf.drop 1)) = true := by
          rw [drop_grow hpos] at hbr
          rw [isBreak_grow ?_ ?_] at hbr
          · exact hbr
          · obtain ⟨r, hr⟩ := startsWith_iff.1 hs5
            rw [hr] at hv ⊢
            exact valid_tail hv (by decide)
          · intro h0; have := congrArg List.length h0; simp at this; omega
        rw [if_neg hbr', if_pos hbs, h1', Out.ok_bind, hc1, flowUnescape_grow hx hx' hs5 hun (Nat.le_of_lt hlen)]
        rw [hc1] at e3
        exact ⟨st', e1, e2, e3⟩
    · have hbr : ∀ z : Bool, ¬ (!single && startsWith st.cur.buf 0x5C && z) = true := by
        intro z hz; rw [Bool.and_eq_true] at hz; exact hbs hz.1
      rw [if_neg (hbr _), if_neg hbs] at h ⊢
      obtain ⟨y, h1, h⟩ := Out.bind_eq_ok.1 h
      obtain ⟨st1, rfl, h1', hc1⟩ := push_grow ht hpos h1
      rw [h1', Out.ok_bind]
      obtain ⟨c, hc, hc2⟩ := push_cur h1'
      refine ih ?_ ?_ h
      · rw [hc2]; exact adv_valid hv hc
      · rw [hc1]; simp only [List.length_drop]; omega

include hx hx' ht in
theorem flowSpace_back {base : Str} {fuel fuel' : Nat} {st x : FlowSt}
    (hv : validUtf8 st.cur.buf = true) (hf : st.cur.buf.length < fuel')
    (h : flowSpace o (base ++ t) fuel (FlowSt.grow t st) = .ok x) (hl : t.length < x.cur.buf.length) :
    ∃ st', x = FlowSt.grow t st' ∧ validUtf8 st'.cur.buf = true ∧ flowSpace o' base fuel' st = .ok st' := by
  induction fuel generalizing fuel' st with
  | zero => cases h
  | succ fuel ih =>
    obtain ⟨fuel', rfl⟩ : ∃ k, fuel' = k + 1 := ⟨fuel' - 1, by omega⟩
    have hgb : (FlowSt.grow t st).cur.buf = st.cur.buf ++ t := rfl
    have hsuf := (flowSpace_suf hx h).length
    rw [hgb, List.length_append] at hsuf
    have hne : st.cur.buf ≠ [] := by
      intro hn; rw [hn] at hsuf; simp at hsuf; omega
    have hpos : 1 ≤ st.cur.buf.length := List.length_pos_iff.2 hne
    rw [flowSpace, cache_whole o hx, Out.ok_bind, hgb, isBlank_grow hne, isBreak_grow hv hne] at h
    rw [flowSpace, cache_whole o' hx', Out.ok_bind]
    by_cases hb : isBlank st.cur.buf = true
    · rw [if_pos hb] at h ⊢
      obtain ⟨y, h1, h⟩ := Out.bind_eq_ok.1 h
      obtain ⟨st1, rfl, h1', hc1⟩ := push_grow ht hpos h1
      rw [h1', Out.ok_bind]
      obtain ⟨c, hc, hc2⟩ := push_cur h1'
      refine ih (st := { st1 with whitespace := st1.whitespace + 1 }) ?_ ?_ h
      · show validUtf8 st1.cur.buf = true
        rw [hc2]; exact adv_valid hv hc
      · show st1.cur.buf.length < _
        rw [hc1]; simp only [List.length_drop]; omega
    rw [if_neg hb] at h ⊢
    by_cases hbr : isBreak st.cur.buf = true
    · rw [if_pos hbr] at h ⊢
      obtain ⟨y, h1, h⟩ := Out.bind_eq_ok.1 h
      obtain ⟨st1, rfl, hc1, h1'⟩ := noBorrow_grow ht h1
      obtain ⟨c, hc, h⟩ := Out.bind_eq_ok.1 h
      rw [h1', Out.ok_bind]
      have hcl : t.length < c.buf.length := by
        have := (flowSpace_suf hx h).length
        simp only at this
        omega
      obtain ⟨rfl, hs⟩ := line_grow ht (s := st1.cur.buf) (m := st1.cur.stats) (by rw [hc1]; exact hv) hc hcl
      have hs : st1.cur.line = _ := hs
      rw [hs, Out.ok_bind]
      have hb0 := breakLen_pos.2 hbr
      have hvl : validUtf8 (st1.cur.buf.drop (breakLen st1.cur.buf)) = true := by
        obtain ⟨-, hb⟩ := line_ok hs
        rw [hc1] at hb ⊢
        exact validUtf8_drop hv hb
      have hll : (st1.cur.buf.drop (breakLen st1.cur.buf)).length < fuel' := by
        rw [hc1, List.length_drop]; omega
      have he : (FlowSt.grow t st1).escapedBreak = st1.escapedBreak := rfl
      simp only [he] at h
      by_cases hes : st1.escapedBreak = some .Start
      · simp only [if_pos hes] at h ⊢
        exact ih (st := { st1 with cur := ⟨st1.cur.buf.drop (breakLen st1.cur.buf), st1.cur.stats.update (breakLen st1.cur.buf) 1 0⟩, whitespace := 0, escapedBreak := some .Started, lines := st1.lines + 1 }) hvl hll h
      · simp only [if_neg hes] at h ⊢
        exact ih (st := { st1 with cur := ⟨st1.cur.buf.drop (breakLen st1.cur.buf), st1.cur.stats.update (breakLen st1.cur.buf) 1 0⟩, lines := st1.lines + 1 }) hvl hll h
    · rw [if_neg hbr] at h ⊢
      injection h with h; subst h
      exact ⟨st, rfl, hv, rfl⟩

include ht in
theorem flowJoin_back {base : Str} {st x : FlowSt} (h : flowJoin (base ++ t) (FlowSt.grow t st) = .ok x) :
    ∃ st', x = FlowSt.grow t st' ∧ st'.cur = st.cur ∧ flowJoin base st = .ok st' := by
  unfold flowJoin at h ⊢
  have hl : (FlowSt.grow t st).lines = st.lines := rfl
  rw [hl] at h
  revert h
  match st.lines with
  | 0 => intro h; injection h with h; subst h; exact ⟨st, rfl, rfl, rfl⟩
  | 1 =>
    intro h
    obtain ⟨y, h1, h⟩ := Out.bind_eq_ok.1 h
    obtain ⟨st1, rfl, hc1, h1'⟩ := noBorrow_grow ht h1
    obtain ⟨s, hs, h⟩ := Out.bind_eq_ok.1 h
    injection h with h; subst h
    simp only
    have hs : truncEnd st1.scratch st1.whitespace = .ok s := hs
    rw [h1', Out.ok_bind, hs, Out.ok_bind]
    exact ⟨{ st1 with scratch := if st1.escapedBreak.isNone then s ++ [b! ' '] else s }, rfl, hc1, rfl⟩
  | n + 2 =>
    intro h
    obtain ⟨y, h1, h⟩ := Out.bind_eq_ok.1 h
    obtain ⟨st1, rfl, hc1, h1'⟩ := noBorrow_grow ht h1
    obtain ⟨s, hs, h⟩ := Out.bind_eq_ok.1 h
    injection h with h; subst h
    simp only
    have hs : truncEnd st1.scratch st1.whitespace = .ok s := hs
    rw [h1', Out.ok_bind, hs, Out.ok_bind]
    exact ⟨{ st1 with scratch := s ++ List.replicate (n + 1) 0x0A }, rfl, hc1, rfl⟩

/-- A marker at the end of a text is one in a longer text. -/
theorem marker_back {w : Str} {q : Byte} {col : Nat} (hv : validUtf8 (w ++ [q]) = true) (hq : q = 0x27 ∨ q = b! '"')
    (h : isDocumentIndicator (w ++ [q]) col = true) : isDocumentIndicator (w ++ [q] ++ t) col = true := by
  unfold isDocumentIndicator at h ⊢
  simp only [Bool.and_eq_true] at h ⊢
  obtain ⟨⟨h1, h2⟩, h3⟩ := h
  obtain ⟨a, r, ha, hr⟩ := startsMarker_three h2
  rw [hr] at hv h3 ⊢
  have hr0 : r ≠ [] := by
    rintro rfl
    have : (w ++ [q]).getLast? = some a := by rw [hr]; rfl
    simp at this
    rcases hq with rfl | rfl <;> rcases ha with rfl | rfl <;> cases this
  refine ⟨⟨h1, ?_⟩, ?_⟩
  · rw [hr] at h2
    rw [startsMarker_grow (by simp)]; exact h2
  · simp only [List.cons_append, List.drop_succ_cons, List.drop_zero] at h3 ⊢
    rw [isWhiteSpaceZ_grow ?_ hr0]
    · exact h3
    · have ha : a < 128 := by rcases ha with rfl | rfl <;> decide
      exact valid_tail (valid_tail (valid_tail hv ha) ha) ha

include hx hx' ht in
theorem flowLoop_back {base : Str} {single : Bool} {fuel fuel' : Nat} {st x : FlowSt} {q : Byte}
    (hv : validUtf8 st.cur.buf = true) (hf : st.cur.buf.length < fuel') (hb : st.cur.buf.length ≤ base.length)
    (h : flowLoop o (base ++ t) single fuel (FlowSt.grow t st) = .ok x) (hl : x.cur.buf = q :: t) (hq : q = 0x27 ∨ q = b! '"') :
    ∃ st', x = FlowSt.grow t st' ∧ flowLoop o' base single fuel' st = .ok st' := by
  induction fuel generalizing fuel' st with
  | zero => cases h
  | succ fuel ih =>
    obtain ⟨fuel', rfl⟩ : ∃ k, fuel' = k + 1 := ⟨fuel' - 1, by omega⟩
    have hgb : (FlowSt.grow t st).cur.buf = st.cur.buf ++ t := rfl
    obtain ⟨w, hw⟩ := flowLoop_suf hx h
    rw [hgb, hl, show w ++ q :: t = (w ++ [q]) ++ t by simp] at hw
    have hw := List.append_cancel_right hw
    have hne : st.cur.buf ≠ [] := by rw [hw]; simp
    rw [flowLoop, cache_whole o hx, Out.ok_bind, cache_whole o hx, Out.ok_bind] at h
    rw [flowLoop, cache_whole o' hx', Out.ok_bind, cache_whole o' hx', Out.ok_bind]
    by_cases hd : isDocumentIndicator (FlowSt.grow t st).cur.buf (FlowSt.grow t st).cur.stats.column = true
    · rw [if_pos hd] at h; cases h
    have hd' : ¬ isDocumentIndicator st.cur.buf st.cur.stats.column = true := by
      intro h'
      apply hd
      rw [hgb]
      rw [hw] at hv h' ⊢
      exact marker_back hv hq h'
    rw [if_neg hd, hgb, isEmpty_grow hne] at h
    rw [if_neg hd']
    have he : ¬ st.cur.buf.isEmpty = true := by simpa using hne
    rw [if_neg he] at h ⊢
    obtain ⟨⟨d, y⟩, h1, h⟩ := Out.bind_eq_ok.1 h
    have hy : t.length < y.cur.buf.length := by
      simp only at h
      split at h
      · injection h with h; subst h; rw [hl]; simp
      · obtain ⟨st2, h2, h⟩ := Out.bind_eq_ok.1 h
        obtain ⟨st3, h3, h⟩ := Out.bind_eq_ok.1 h
        have s2 := (flowSpace_suf hx h2).length
        have s3 := (flowLoop_suf hx h).length
        rw [flowJoin_cur h3, hl] at s3
        simp at s2 s3
        omega
    obtain ⟨st1, rfl, hv1, h1'⟩ := flowWord_back hx hx' ht (st := { st with escapedBreak := none }) (fuel' := base.length + 1)
      hv (show st.cur.buf.length < _ by omega) h1 hy
    have l1 := (flowWord_suf hx' h1').length
    rw [h1', Out.ok_bind]
    simp only at h l1 ⊢
    by_cases hd : d = true
    · rw [if_pos hd] at h ⊢
      injection h with h
      exact ⟨st1, h.symm, rfl⟩
    rw [if_neg hd] at h ⊢
    obtain ⟨y2, h2, h⟩ := Out.bind_eq_ok.1 h
    obtain ⟨y3, h3, h⟩ := Out.bind_eq_ok.1 h
    have s3 := (flowLoop_suf hx h).length
    rw [flowJoin_cur h3, hl] at s3
    obtain ⟨st2, rfl, hv2, h2'⟩ := flowSpace_back hx hx' ht (st := { st1 with whitespace := 0, lines := 0 }) (fuel' := base.length + 1)
      hv1 (show st1.cur.buf.length < _ by omega) h2 (by simp at s3; omega)
    have l2 := (flowSpace_suf hx' h2').length
    obtain ⟨st3, rfl, hc3, h3'⟩ := flowJoin_back ht h3
    rw [h2', Out.ok_bind, h3', Out.ok_bind]
    simp only at l2
    have l3 : st3.cur.buf.length < st.cur.buf.length := by
      have hd : d = false := by simpa using hd
      subst hd
      have hz := flowWord_ws hx' h1'
      have hn1 : st1.cur.buf ≠ [] := by
        intro h0
        have : (FlowSt.grow t st1).cur.buf = t := by show st1.cur.buf ++ t = t; rw [h0]; rfl
        rw [this] at hy; omega
      have hz : isWhiteSpace st1.cur.buf = true := by
        unfold isWhiteSpaceZ at hz
        have : st1.cur.buf.isEmpty = false := by simpa using hn1
        rw [this, Bool.or_false] at hz
        exact hz
      have := flowSpace_lt hx' h2' hz
      rw [hc3]
      simp only at this
      omega
    exact ih (by rw [hc3]; exact hv2) (by omega) (by omega) h

end Yary.Deferred
