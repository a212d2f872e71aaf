import Verif.Proof.Lazy.Block

/-! # A block scalar scanned now or evaluated later -/

namespace Yary.Deferred

open Chunk Spec

variable {o o' o2 : SFlags} {t : Str} (hx : o.extendable = false) (hx' : o'.extendable = false) (hx2 : o2.extendable = false) (ht : HeadOk t)

/-! ## The loop -/

section
include hx

theorem toBreak_lt {fuel : Nat} {c x : Cur} (h : toBreak o fuel c = .ok x) (hb : isBreakZ c.buf = false) : x.buf.length < c.buf.length := by
  cases fuel with
  | zero => cases h
  | succ fuel =>
    rw [toBreak, if_neg (by rw [hb]; simp), cache_whole o hx, Out.ok_bind] at h
    obtain ⟨c1, h1, h⟩ := Out.bind_eq_ok.1 h
    have := (toBreak_moves hx h).1.suf.length
    have hne : 0 < c.buf.length := by
      rcases Nat.eq_zero_or_pos c.buf.length with h0 | h0
      · rw [List.length_eq_zero_iff.1 h0] at hb; cases hb
      · exact h0
    rw [(adv_ok h1).1] at this
    simp only [List.length_drop] at this
    omega

/-- One line of the scalar. -/
structure Line (o : SFlags) (base : Str) (indent : Nat) (a : Cur) (c c1 : Cur) (k : Nat) : Prop where
  first : Moves a c
  second : Moves c c1
  less : c1.buf.length < a.buf.length
  stopped : isBreakZ c.buf = true
  lines : 0 < k → isBreak c.buf = true
  left : isBreak c.buf = true → c1.buf.length < c.buf.length

theorem line_props {base : Str} {indent fuel k k1 : Nat} {a c c0 c1 : Cur} (hne : a.buf ≠ []) (h1 : toBreak o fuel a = .ok c)
    (h2 : eatBreak o c 0 = .ok (c0, k1)) (h3 : scanIndent o indent c0 k1 = .ok (c1, k)) : Line o base indent a c c1 k := by
  obtain ⟨m1, s1⟩ := toBreak_moves hx h1
  obtain ⟨m2, b2, n2⟩ := eatBreak_moves hx h2
  have m3 := scanIndent_moves hx h3
  have l1 := m1.suf.length
  have l2 := m2.suf.length
  have l3 := m3.suf.length
  refine ⟨m1, m2.trans m3, ?_, s1, ?_, fun hb => by have := (b2 hb).1; omega⟩
  · cases hb : isBreak c.buf with
    | true => have := (b2 hb).1; omega
    | false =>
      cases hz : isBreakZ a.buf with
      | false => have := toBreak_lt hx h1 hz; omega
      | true =>
        -- the loop did nothing
        have : c = a := by
          cases fuel with
          | zero => cases h1
          | succ fuel => rw [toBreak, if_pos hz] at h1; injection h1 with h1; exact h1.symm
        subst this
        unfold isBreakZ at hz
        rw [hb, Bool.false_or] at hz
        exact absurd (List.isEmpty_iff.1 hz) hne
  · intro hk
    cases hb : isBreak c.buf with
    | true => rfl
    | false =>
      exfalso
      obtain ⟨rfl, rfl⟩ := n2 hb
      have hce : c0.buf = [] := by
        unfold isBreakZ at s1
        rw [hb, Bool.false_or] at s1
        exact List.isEmpty_iff.1 s1
      unfold scanIndent at h3
      split at h3
      · injection h3 with h3; injection h3 with _ h3; omega
      · rw [cache_whole o hx, Out.ok_bind, scanIndentLoop, hce, if_neg (by rw [show isWhiteSpace [] = false from rfl]; simp)] at h3
        injection h3 with h3; injection h3 with _ h3; omega

theorem blockLoop_moves {base : Str} {read : Nat} {fold : Bool} {indent fuel : Nat} {st x : BlockSt}
    (h : blockLoop o base read fold indent fuel st = .ok x) : Moves st.cur x.cur := by
  induction fuel generalizing st with
  | zero => cases h
  | succ fuel ih =>
    rw [blockLoop_succ] at h
    split at h
    · obtain ⟨st1, h1, h⟩ := Out.bind_eq_ok.1 h
      have hc1 : st1.cur = st.cur := by
        unfold BlockSt.trapdoor at h1
        split at h1
        · obtain ⟨s, -, h1⟩ := Out.bind_eq_ok.1 h1
          injection h1 with h1; subst h1; rfl
        · injection h1 with h1; subst h1; rfl
      rw [cache_whole o hx, Out.ok_bind] at h
      obtain ⟨c, h2, h⟩ := Out.bind_eq_ok.1 h
      obtain ⟨⟨c1, k⟩, h3, h⟩ := Out.bind_eq_ok.1 h
      obtain ⟨⟨c0, k0⟩, h3, h4⟩ := Out.bind_eq_ok.1 h3
      have m1 := (toBreak_moves hx h2).1
      have m2 := (eatBreak_moves hx h3).1
      have m3 := scanIndent_moves hx h4
      rw [hc1] at m1
      exact ((m1.trans m2).trans m3).trans (ih h)
    · injection h with h; subst h; exact .refl _

end

include hx hx2 in
/-- The loop without evaluation reads the same. -/
theorem blockLazyLoop_same {base : Str} {read : Nat} {fold : Bool} {indent fuel fuel' : Nat} {st x : BlockSt}
    (hv : validUtf8 st.cur.buf = true) (hf : st.cur.buf.length < fuel')
    (h : blockLoop o base read fold indent fuel st = .ok x) : blockLazyLoop o2 indent fuel' st.cur = .ok x.cur := by
  induction fuel generalizing st fuel' with
  | zero => cases h
  | succ fuel ih =>
    obtain ⟨fuel', rfl⟩ : ∃ k, fuel' = k + 1 := ⟨fuel' - 1, by omega⟩
    rw [blockLoop_succ] at h
    rw [blockLazyLoop]
    by_cases hc : (decide (st.cur.stats.column = indent) && !st.cur.buf.isEmpty) = true
    · rw [if_pos hc] at h ⊢
      have hne : st.cur.buf ≠ [] := by
        intro h0; rw [h0] at hc; simp at hc
      obtain ⟨st1, h1, h⟩ := Out.bind_eq_ok.1 h
      have hc1 : st1.cur = st.cur := by
        unfold BlockSt.trapdoor at h1
        split at h1
        · obtain ⟨s, -, h1⟩ := Out.bind_eq_ok.1 h1
          injection h1 with h1; subst h1; rfl
        · injection h1 with h1; subst h1; rfl
      rw [cache_whole o hx, Out.ok_bind, hc1] at h
      obtain ⟨c, h2, h⟩ := Out.bind_eq_ok.1 h
      obtain ⟨⟨c1, k⟩, h3, h⟩ := Out.bind_eq_ok.1 h
      obtain ⟨⟨c0, k0⟩, h3, h4⟩ := Out.bind_eq_ok.1 h3
      have hln := line_props hx (base := base) hne h2 h3 h4
      have hnil : HeadOk [] := fun b t h => by cases h
      -- the same functions on the same text, with other options and fuel
      obtain ⟨d, e1, h2'⟩ := toBreak_back hx hx2 hnil (fuel' := st.cur.buf.length + 1) hv (Nat.lt_succ_self _)
        (by rw [grow_nil]; exact h2) (.inl rfl)
      rw [grow_nil] at e1; subst e1
      have h3' : eatBreak o2 c 0 = .ok (c0, k0) := by
        unfold eatBreak at h3 ⊢
        rw [cache_whole o hx] at h3
        rw [cache_whole o2 hx2]; exact h3
      have v0 := (eatBreak_moves hx h3).1.valid (hln.first.valid hv)
      -- the number of lines is not used
      have hi : ∀ {fuel fuel' n m k : Nat} {a b : Cur}, validUtf8 a.buf = true → a.buf.length < fuel' →
          scanIndentLoop o indent fuel a n = .ok (b, k) → ∃ k', scanIndentLoop o2 indent fuel' a m = .ok (b, k') := by
        intro fuel
        induction fuel with
        | zero => intro _ _ _ _ _ _ _ _ h; cases h
        | succ fuel ih =>
          intro fuel' n m k a b hva hfa h
          obtain ⟨fuel', rfl⟩ : ∃ k, fuel' = k + 1 := ⟨fuel' - 1, by omega⟩
          rw [scanIndentLoop] at h ⊢
          by_cases hcc : (decide (a.stats.column < indent) && isWhiteSpace a.buf) = true
          · rw [if_pos hcc] at h ⊢
            by_cases hs : startsWith a.buf b! ' ' = true
            · rw [if_pos hs] at h ⊢
              obtain ⟨a1, g1, h⟩ := Out.bind_eq_ok.1 h
              rw [cache_whole o hx, Out.ok_bind] at h
              rw [g1, Out.ok_bind, cache_whole o2 hx2, Out.ok_bind]
              refine ih (adv_valid hva g1) ?_ h
              obtain ⟨r, hr⟩ := startsWith_iff.1 hs
              rw [(adv_ok g1).1]; simp only [List.length_drop]; rw [hr] at hfa ⊢; simp at hfa ⊢; omega
            rw [if_neg hs] at h ⊢
            by_cases hs2 : startsWith a.buf 0x09 = true
            · rw [if_pos hs2] at h; cases h
            rw [if_neg hs2] at h ⊢
            obtain ⟨a1, g1, h⟩ := Out.bind_eq_ok.1 h
            rw [cache_whole o hx, Out.ok_bind] at h
            rw [g1, Out.ok_bind, cache_whole o2 hx2, Out.ok_bind]
            have hbr : isBreak a.buf = true := by
              rw [Bool.and_eq_true] at hcc
              have := hcc.2
              unfold isWhiteSpace isBlank at this
              simp only [Bool.or_eq_true] at this
              rcases this with (h5 | h5) | h5
              · exact absurd h5 hs
              · exact absurd h5 hs2
              · exact h5
            refine ih ((Moves.line g1).valid hva) ?_ h
            have := breakLen_pos.2 hbr
            have := breakLen_le a.buf
            rw [(line_ok g1).1]; simp only [List.length_drop]; omega
          · rw [if_neg hcc] at h ⊢
            injection h with h; injection h with h h'; subst h
            exact ⟨m, rfl⟩
      obtain ⟨k', h4'⟩ : ∃ k', scanIndent o2 indent c0 0 = .ok (c1, k') := by
        unfold scanIndent at h4 ⊢
        by_cases hcc : c0.stats.column ≥ indent
        · rw [if_pos hcc] at h4 ⊢
          injection h4 with h4; injection h4 with h4 _; subst h4
          exact ⟨0, rfl⟩
        · rw [if_neg hcc] at h4 ⊢
          rw [cache_whole o hx, Out.ok_bind] at h4
          rw [cache_whole o2 hx2, Out.ok_bind]
          exact hi v0 (Nat.lt_succ_self _) h4
      rw [cache_whole o2 hx2, Out.ok_bind, h2', Out.ok_bind, h3', Out.ok_bind]
      simp only
      rw [h4', Out.ok_bind]
      simp only
      have := ih (st := _) (fuel' := fuel') ?_ ?_ h
      · exact this
      · exact hln.second.valid (hln.first.valid hv)
      · have := hln.less
        simp only
        omega
    · rw [if_neg hc] at h ⊢
      injection h with h; subst h; rfl

/-- What is known of a scalar that may be borrowed. -/
structure Borrow (base : Str) (read : Nat) (st : BlockSt) : Prop where
  suf : Suf base st.cur.buf
  rd : st.cur.stats.read + st.cur.buf.length = read + base.length
  start : st.canBorrow = true → st.start ≤ st.cur.stats.read - read
  stop : st.canBorrow = true → st.stop ≤ base.length
  lines : st.canBorrow = true → 0 < st.lines → st.start ≤ st.stop ∧ isBreak (base.drop st.stop) = true

theorem Suf.drop_eq {a b : Str} (h : Suf a b) : a.drop (a.length - b.length) = b := by
  obtain ⟨w, rfl⟩ := h
  simp

include ht in
theorem trapdoor_back {base : Str} {st x : BlockSt} (hs : st.canBorrow = true → st.stop ≤ base.length)
    (h : (BlockSt.grow t st).trapdoor (base ++ t) = .ok x) :
    ∃ st', x = BlockSt.grow t st' ∧ st.trapdoor base = .ok st' ∧ st'.cur = st.cur ∧ st'.start = st.start ∧
      (st'.canBorrow = true → st.canBorrow = true) := by
  unfold BlockSt.trapdoor at h ⊢
  have hg : (BlockSt.grow t st).canBorrow = st.canBorrow ∧ (BlockSt.grow t st).lines = st.lines := ⟨rfl, rfl⟩
  rw [hg.1, hg.2] at h
  by_cases hc : (st.canBorrow && decide (0 < st.lines)) = true
  · rw [if_pos hc] at h ⊢
    obtain ⟨s, h1, h⟩ := Out.bind_eq_ok.1 h
    injection h with h; subst h
    rw [Bool.and_eq_true] at hc
    have h1 : slice (base ++ t) st.start st.stop = .ok s := h1
    rw [slice_grow ht (hs hc.1)] at h1
    refine ⟨{ st with scratch := st.scratch ++ s, canBorrow := false }, rfl, by rw [h1]; rfl, rfl, rfl, (fun h => by cases h)⟩
  · rw [if_neg hc] at h ⊢
    injection h with h; subst h
    exact ⟨st, rfl, rfl, rfl, rfl, id⟩

include ht hx hx' in
theorem blockLoop_back {base : Str} {read : Nat} {fold : Bool} {indent fuel fuel' : Nat} {st x : BlockSt}
    (hv : validUtf8 st.cur.buf = true) (hf : st.cur.buf.length < fuel') (hB : Borrow base read st)
    (h : blockLoop o (base ++ t) read fold indent fuel (BlockSt.grow t st) = .ok x) (hl : x.cur.buf = t) :
    ∃ st', x = BlockSt.grow t st' ∧ blockLoop o' base read fold indent fuel' st = .ok st' ∧ Borrow base read st' := by
  induction fuel generalizing st fuel' with
  | zero => cases h
  | succ fuel ih =>
    obtain ⟨fuel', rfl⟩ : ∃ k, fuel' = k + 1 := ⟨fuel' - 1, by omega⟩
    rw [blockLoop_succ] at h ⊢
    have hgc : (BlockSt.grow t st).cur = grow t st.cur := rfl
    have hgs : (grow t st.cur).stats = st.cur.stats := rfl
    have hgb : (grow t st.cur).buf = st.cur.buf ++ t := rfl
    rw [hgc, hgs, hgb] at h
    by_cases hc : (decide (st.cur.stats.column = indent) && !(st.cur.buf ++ t).isEmpty) = true
    · rw [if_pos hc] at h
      obtain ⟨y, h1, h⟩ := Out.bind_eq_ok.1 h
      obtain ⟨st1, rfl, h1', e1, e2, e3⟩ := trapdoor_back ht hB.stop h1
      rw [cache_whole o hx, Out.ok_bind] at h
      obtain ⟨c, h2, h⟩ := Out.bind_eq_ok.1 h
      obtain ⟨⟨c1, k⟩, h3, h⟩ := Out.bind_eq_ok.1 h
      obtain ⟨⟨c0, k0⟩, h3, h4⟩ := Out.bind_eq_ok.1 h3
      have hgc1 : (BlockSt.grow t st1).cur = grow t st.cur := by
        rw [← e1]; rfl
      rw [hgc1] at h2
      have hne0 : st.cur.buf ++ t ≠ [] := by
        intro h0; rw [h0] at hc; simp at hc
      have hln := line_props hx (base := base) (by rw [hgb]; exact hne0) h2 h3 h4
      have hmx := (blockLoop_moves hx h).suf.length
      simp only at hmx
      rw [hl] at hmx
      have hl2 := hln.second.suf.length
      have hleft : Left t c.buf := by
        by_cases hb : isBreak c.buf = true
        · right; have := hln.left hb; omega
        · left
          have := hln.stopped
          unfold isBreakZ at this
          rw [show isBreak c.buf = false by simpa using hb, Bool.false_or] at this
          have := List.isEmpty_iff.1 this
          rw [this] at hl2
          simp only [List.length_nil] at hl2
          exact List.length_eq_zero_iff.1 (by omega)
      have hne : st.cur.buf ≠ [] := by
        intro h0
        have := hln.less
        rw [hgb, h0, List.nil_append] at this
        omega
      have hc' : (decide (st.cur.stats.column = indent) && !st.cur.buf.isEmpty) = true := by
        rw [isEmpty_grow hne] at hc; exact hc
      rw [if_pos hc', h1', Out.ok_bind, cache_whole o' hx', Out.ok_bind, e1]
      have hblen : st.cur.buf.length ≤ base.length := hB.suf.length
      obtain ⟨c, rfl, h2'⟩ := toBreak_back hx hx' ht (fuel' := base.length + 1) hv (by omega) h2 hleft
      have mv := (toBreak_moves hx' h2').1
      have v1 := mv.valid hv
      -- the line break
      obtain ⟨c0, rfl, h3'⟩ : ∃ c0', c0 = grow t c0' ∧ eatBreak o' c 0 = .ok (c0', k0) := by
        unfold eatBreak at h3 ⊢
        rw [cache_whole o hx, Out.ok_bind] at h3
        rw [cache_whole o' hx', Out.ok_bind]
        have hgb2 : (grow t c).buf = c.buf ++ t := rfl
        rw [hgb2] at h3
        by_cases hb : isBreak (c.buf ++ t) = true
        · rw [if_pos hb] at h3
          obtain ⟨d, g1, h3⟩ := Out.bind_eq_ok.1 h3
          injection h3 with h3; injection h3 with h3 h3k; subst h3; subst h3k
          have hsi := (scanIndent_moves hx h4).suf.length
          simp only at hsi
          obtain ⟨d, rfl, g1'⟩ := line_back ht v1 hb g1 (by omega)
          have hnc : c.buf ≠ [] ∨ t = [] := hleft.ne
          have hb' : isBreak c.buf = true := by
            rcases hnc with hnc | rfl
            · rw [← isBreak_grow v1 hnc]; exact hb
            · rw [List.append_nil] at hb; exact hb
          rw [if_pos hb', g1', Out.ok_bind]
          exact ⟨d, rfl, rfl⟩
        · rw [if_neg hb] at h3
          injection h3 with h3; injection h3 with h3 h3k; subst h3; subst h3k
          have hb' : ¬ isBreak c.buf = true := by
            rcases hleft.ne with hnc | rfl
            · rw [← isBreak_grow v1 hnc]; exact hb
            · rw [List.append_nil] at hb; exact hb
          rw [if_neg hb']
          exact ⟨c, rfl, rfl⟩
      have v2 := (eatBreak_moves hx' h3').1.valid v1
      obtain ⟨c1, rfl, h4'⟩ := scanIndent_back hx hx' ht v2 h4 (by omega)
      have hln' := line_props hx' (base := base) hne h2' h3' h4'
      have v3 := hln'.second.valid v1
      rw [h2', Out.ok_bind, h3', Out.ok_bind]
      simp only
      rw [h4', Out.ok_bind]
      simp only
      have hlen : (grow t st.cur).buf.length - (grow t c).buf.length = st.cur.buf.length - c.buf.length := by
        simp only [grow, List.length_append]; omega
      have htk : (grow t st.cur).buf.take (st.cur.buf.length - c.buf.length) =
          st.cur.buf.take (st.cur.buf.length - c.buf.length) := take_grow (by omega)
      rw [hgc1, hlen, htk] at h
      have hcl := hln'.first.read
      have hcl2 := hln'.second.read
      have hcl3 := hln'.first.suf.length
      have hcl4 := hln'.second.suf.length
      have hrd := hB.rd
      have hsufc : Suf base c.buf := hB.suf.trans hln'.first.suf
      refine ih (st := ⟨c1, _, _, _, _, k⟩) v3 (by have := hln'.less; simp only; omega) ⟨?_, ?_, ?_, ?_, ?_⟩ h
      · exact hsufc.trans hln'.second.suf
      · simp only; omega
      · intro hcb
        simp only at hcb ⊢
        rw [if_pos hcb]
        have := hB.start (e3 hcb)
        rw [e2]
        split <;> omega
      · intro hcb
        simp only at hcb ⊢
        rw [if_pos hcb]
        show c.stats.read - read ≤ _
        omega
      · intro hcb hk
        simp only at hcb hk ⊢
        rw [if_pos hcb, if_pos hcb]
        refine ⟨?_, ?_⟩
        · have := hB.start (e3 hcb)
          rw [e2]
          split <;> omega
        · have h6 : base.length - c.buf.length = c.stats.read - read := by omega
          show isBreak (base.drop (c.stats.read - read)) = true
          rw [← h6, hsufc.drop_eq]
          exact hln'.lines hk
    · rw [if_neg hc] at h
      injection h with h; subst h
      have hc' : ¬ (decide (st.cur.stats.column = indent) && !st.cur.buf.isEmpty) = true := by
        intro h0
        rw [Bool.and_eq_true] at h0
        apply hc
        rw [Bool.and_eq_true]
        refine ⟨h0.1, ?_⟩
        cases hb : st.cur.buf with
        | nil => rw [hb] at h0; simp at h0
        | cons => rfl
      rw [if_neg hc']
      exact ⟨st, rfl, rfl, hB⟩

/-! ## The result -/

theorem slice_ok {s v : Str} {a b : Nat} (h : (slice s a b : Out ScanError Str) = .ok v) :
    a ≤ b ∧ isBoundary s a = true ∧ isBoundary s b = true ∧ v = (s.drop a).take (b - a) := by
  unfold slice at h
  split at h
  · rename_i hc
    simp only [Bool.and_eq_true, decide_eq_true_eq] at hc
    injection h with h
    exact ⟨hc.1.1, hc.1.2, hc.2, h.symm⟩
  · cases h

theorem slice_eq {s : Str} {a b : Nat} (h1 : a ≤ b) (h2 : isBoundary s a = true) (h3 : isBoundary s b = true) :
    (slice s a b : Out ScanError Str) = .ok ((s.drop a).take (b - a)) := by
  unfold slice
  rw [if_pos (by simp [h1, h2, h3])]

/-- The character after a boundary does not end within itself. -/
theorem width_boundary {p r : Str} (hv : validUtf8 r = true) (hr : r ≠ [])
    (h : isBoundary (p ++ r) (p.length - 1 + widthOf r) = true) (hp : p ≠ []) : widthOf r = 1 := by
  obtain ⟨l, rfl⟩ := (validUtf8_iff r).1 hv
  cases l with
  | nil => exact absurd rfl hr
  | cons c l =>
    obtain ⟨b, u, hb, h1, h2, h3, h4⟩ := utf8Char_shape c
    have hu : utf8 (c :: l) = (b :: u) ++ utf8 l := by simp [utf8, hb]
    rw [hu] at h ⊢
    rw [List.cons_append, h4] at h
    rw [List.cons_append, h4]
    rcases Nat.eq_zero_or_pos u.length with h0 | h0
    · omega
    · exfalso
      have hpl := List.length_pos_iff.2 hp
      have hi : p.length - 1 + (u.length + 1) = p.length + u.length := by omega
      have hi' : p.length - 1 + (1 + u.length) = p.length + u.length := by omega
      simp only [hi, hi'] at h
      unfold isBoundary at h
      have hg : (p ++ (b :: (u ++ utf8 l)))[p.length + u.length]? = some (u[u.length - 1]'(by omega)) := by
        rw [List.getElem?_append_right (by omega)]
        rw [show p.length + u.length - p.length = (u.length - 1) + 1 by omega, List.getElem?_cons_succ,
          List.getElem?_append_left (by omega), List.getElem?_eq_getElem]
      rw [hg] at h
      have := h3 (u[u.length - 1]'(by omega)) (List.getElem_mem _)
      simp only [Bool.or_eq_true, beq_iff_eq, decide_eq_true_eq] at h
      rcases h with h | h | h
      · omega
      · byte_omega
      · byte_omega

include ht in
theorem scanChomp_back {base v : Str} {read : Nat} {ch : ChompStyle} {st : BlockSt} (hvb : validUtf8 base = true) (hvt : validUtf8 t = true)
    (hB : Borrow base read st) (h : scanChomp (base ++ t) ch (BlockSt.grow t st) = .ok v) :
    ∃ v', scanChomp base ch st = .ok v' ∧ (v' = v ∨ ch = .Clip ∧ ∃ b, (b = 0x0A ∨ b = 0x0D) ∧ v = v' ++ [b]) := by
  unfold scanChomp at h ⊢
  have hg1 : (BlockSt.grow t st).canBorrow = st.canBorrow := rfl
  have hg2 : (BlockSt.grow t st).lines = st.lines := rfl
  have hg3 : (BlockSt.grow t st).start = st.start := rfl
  have hg4 : (BlockSt.grow t st).stop = st.stop := rfl
  have hg5 : (BlockSt.grow t st).scratch = st.scratch := rfl
  rw [hg1, hg2, hg3, hg4, hg5] at h
  by_cases hc : st.canBorrow = true
  rotate_left
  · rw [if_neg hc] at h ⊢
    exact ⟨v, h, .inl rfl⟩
  rw [if_pos hc] at h ⊢
  have hstop := hB.stop hc
  by_cases hk : (decide (ch = .Keep) && decide (1 < st.lines)) = true
  · rw [if_pos hk] at h ⊢
    rw [slice_grow ht hstop] at h
    exact ⟨v, h, .inl rfl⟩
  rw [if_neg hk] at h ⊢
  unfold chompBorrow at h ⊢
  cases ch with
  | Strip =>
    simp only at h ⊢
    rw [slice_grow ht hstop] at h
    exact ⟨v, h, .inl rfl⟩
  | Keep =>
    simp only at h ⊢
    have hl : st.lines ≤ 1 := by simpa using hk
    have hle : st.stop + st.lines ≤ base.length := by
      rcases Nat.eq_zero_or_pos st.lines with h0 | h0
      · omega
      · have hb := (hB.lines hc h0).2
        have : base.drop st.stop ≠ [] := by intro h1; rw [h1] at hb; cases hb
        have := List.length_pos_iff.2 this
        rw [List.length_drop] at this
        omega
    rw [slice_grow ht hle] at h
    exact ⟨v, h, .inl rfl⟩
  | Clip =>
    simp only at h ⊢
    by_cases h0 : 0 < st.lines
    rotate_left
    · rw [if_neg h0] at h ⊢
      rw [slice_grow ht hstop] at h
      exact ⟨v, h, .inl rfl⟩
    rw [if_pos h0] at h ⊢
    obtain ⟨rest, h1, h⟩ := Out.bind_eq_ok.1 h
    obtain ⟨-, hbs, -, hrest⟩ := slice_ok h1
    rw [boundary_grow ht hstop] at hbs
    have hrest : rest = base.drop st.stop ++ t := by
      rw [hrest, drop_grow hstop, List.take_of_length_le]
      simp; omega
    subst hrest
    have hbl : isBoundary base base.length = true := by unfold isBoundary; simp
    rw [slice_eq hstop hbs hbl, List.take_of_length_le (by simp), Out.ok_bind]
    obtain ⟨hss, hbr⟩ := hB.lines hc h0
    obtain ⟨hle, hb1, hb2, hval⟩ := slice_ok h
    cases hr : base.drop st.stop with
    | nil => rw [hr] at hbr; cases hbr
    | cons b r =>
      have hlen : base.length = st.stop + 1 + r.length := by
        have := congrArg List.length hr
        rw [List.length_drop, List.length_cons] at this
        omega
      rw [hr] at h hbr
      simp only [List.cons_append, List.drop_succ_cons, List.drop_zero] at h ⊢
      by_cases hre : r = []
      · subst hre
        simp only [List.nil_append] at h
        rw [boundary_grow ht (by omega)] at hb1
        simp only [widthOf, Nat.add_zero]
        refine ⟨_, slice_eq hss hb1 hbs, ?_⟩
        by_cases ht0 : t = []
        · left
          subst ht0
          obtain ⟨-, -, -, e⟩ := slice_ok h
          rw [e]; simp [widthOf]
        · right
          refine ⟨trivial, b, ?_, ?_⟩
          · have hb3 : b < 128 := by
              have := validUtf8_drop hvb hbs
              rw [hr] at this
              exact ascii_of_one this (by unfold isBoundary; simp)
            unfold isBreak at hbr
            split at hbr <;> simp_all
          · have hw : widthOf t = 1 := by
              refine width_boundary (p := base) hvt ht0 ?_ (by intro h5; rw [h5] at hlen; simp at hlen)
              obtain ⟨-, -, hb4, -⟩ := slice_ok h
              rw [show base.length - 1 = st.stop by simp at hlen; omega]
              exact hb4
            obtain ⟨-, -, -, e⟩ := slice_ok h
            rw [e, hw]
            have hd : (base ++ t).drop st.start = base.drop st.start ++ t := drop_grow (by omega)
            rw [hd]
            have hl1 : st.stop + 1 - st.start = (base.drop st.start).length := by
              rw [List.length_drop, hlen]; simp
            rw [hl1, List.take_left]
            have h7 : (base.drop st.start).drop (st.stop - st.start) = [b] := by
              rw [List.drop_drop, show st.start + (st.stop - st.start) = st.stop by omega, hr]
            rw [← h7, List.take_append_drop]
      · rw [widthOf_grow hre] at h
        have hw := width_fits hvb (k := st.stop + 1) (by omega)
        have hd : base.drop (st.stop + 1) = r := by
          rw [← List.drop_drop, hr]; rfl
        rw [hd] at hw
        rw [slice_grow ht (by omega)] at h
        exact ⟨v, h, .inl rfl⟩

/-- The text of the scalar says what to do with its final line breaks. -/
def SaysChomp (s : Str) : Prop := headerHas (s.drop 1) b! '+' = true ∨ headerHas (s.drop 1) b! '-' = true

include hx in
theorem blockHeader_chomp {c x : Cur} {ch : ChompStyle} {ex : Option Nat} (h : blockHeader o c = .ok (ch, ex, x)) (hs : SaysChomp c.buf) :
    ch ≠ .Clip := by
  unfold blockHeader at h
  rw [cache_whole o hx, Out.ok_bind] at h
  obtain ⟨c1, h1, h⟩ := Out.bind_eq_ok.1 h
  obtain ⟨⟨ch', ex', c2⟩, h2, h⟩ := Out.bind_eq_ok.1 h
  have hch : ch' = ch := by
    obtain ⟨c3, h3, h⟩ := Out.bind_eq_ok.1 h
    rw [cache_whole o hx, Out.ok_bind] at h
    split at h
    · cases h
    · obtain ⟨c4, h4, h⟩ := Out.bind_eq_ok.1 h
      injection h with h; injection h with h _
  subst hch
  unfold scanHeaders at h2
  rw [cache_whole o hx, Out.ok_bind] at h2
  obtain ⟨c3, h3, h2⟩ := Out.bind_eq_ok.1 h2
  injection h2 with h2; injection h2 with h2 _
  subst h2
  unfold SaysChomp at hs
  have e1 : c1.buf = c.buf.drop 1 := by rw [(adv_ok h1).1]
  rw [e1]
  by_cases hp : headerHas (c.buf.drop 1) b! '+' = true
  · rw [if_pos hp]; intro h; cases h
  · rw [if_neg hp]
    rcases hs with hs | hs
    · exact absurd hs hp
    · rw [if_pos hs]; intro h; cases h

include hx hx' in
/-- A block scalar that can be scanned can be scanned without evaluating it, and evaluated later; only the final
line break may be lost. -/
theorem scanBlock_lazy {k : Nat} {fold : Bool} {c c2 : Cur} {tok : Token} (hv : validUtf8 c.buf = true) (hne : c.buf ≠ [])
    (h : scanBlockEager o k fold c = .ok (tok, c2)) :
    ∃ l tok', scanBlockLazy o' k fold c = .ok (l, c2) ∧ l.intoToken = .ok tok' ∧
      (tok' = tok ∨ ¬ SaysChomp c.buf ∧ ∃ v b, (b = 0x0A ∨ b = 0x0D) ∧ tok' = .Scalar v (blockStyle fold) ∧ tok = .Scalar (v ++ [b]) (blockStyle fold)) := by
  rw [scanBlockEager_eq] at h
  obtain ⟨⟨ch, ex, c1⟩, h1, h⟩ := Out.bind_eq_ok.1 h
  obtain ⟨d, h2, h⟩ := Out.bind_eq_ok.1 h
  obtain ⟨st, h3, h⟩ := Out.bind_eq_ok.1 h
  obtain ⟨v, h4, h⟩ := Out.bind_eq_ok.1 h
  injection h with h; injection h with htok h; subst h
  have m1 : Moves c c1 := by
    rw [Chunk.blockHeader_eq] at h1
    obtain ⟨⟨ch', ex', c1'⟩, g1, h1⟩ := Out.bind_eq_ok.1 h1
    obtain ⟨c2', g2, h1⟩ := Out.bind_eq_ok.1 h1
    injection h1 with h1; injection h1 with _ h1; injection h1 with _ h1; subst h1
    exact (headTo_props hx hx (show HeadOk [] from fun b t h => by cases h) g1).1.trans (.line g2)
  have m2 : Moves c1 d.cur := by
    unfold blockIndent at h2
    split at h2
    · injection h2 with h2; subst h2; exact .refl _
    · unfold detectIndent at h2
      obtain ⟨d', g1, h2⟩ := Out.bind_eq_ok.1 h2
      injection h2 with h2; subst h2
      exact detectLoop_moves hx g1
  have m3 := blockLoop_moves hx h3
  simp only at m3
  have v1 := m1.valid hv
  have v2 := m2.valid v1
  have v3 := m3.valid v2
  have hh := headOk_of_valid v3
  obtain ⟨s, hs⟩ : ∃ s, c.buf = s ++ st.cur.buf := (m1.suf.trans m2.suf).trans m3.suf
  generalize ht : st.cur.buf = t at *
  have vs : validUtf8 s = true := valid_before (by rw [← hs]; exact hv) hh
  have hcg : c = grow t ⟨s, c.stats⟩ := by unfold grow; rw [← hs]
  have l2 := m2.suf.length
  have l3 := m3.suf.length
  rw [ht] at l3
  -- the header is in the text of the scalar
  have hs1 : 1 ≤ s.length := by
    have h5 : c1.buf.length < c.buf.length := by
      rw [Chunk.blockHeader_eq] at h1
      obtain ⟨⟨ch', ex', c1'⟩, g1, h1⟩ := Out.bind_eq_ok.1 h1
      obtain ⟨c2', g2, h1⟩ := Out.bind_eq_ok.1 h1
      injection h1 with h1; injection h1 with _ h1; injection h1 with _ h1; subst h1
      have l4 := (Moves.line g2).suf.length
      simp only at l4
      unfold headTo at g1
      rw [cache_whole o hx, Out.ok_bind] at g1
      obtain ⟨a, k1, g1⟩ := Out.bind_eq_ok.1 g1
      obtain ⟨⟨ch'', ex'', a2⟩, k2, g1⟩ := Out.bind_eq_ok.1 g1
      obtain ⟨a3, k3, g1⟩ := Out.bind_eq_ok.1 g1
      rw [cache_whole o hx, Out.ok_bind] at g1
      split at g1
      · cases g1
      injection g1 with g1; injection g1 with _ g1; injection g1 with _ g1; subst g1
      have l5 := (skipBlanks_moves hx k3).1.suf.length
      have l6 : a2.buf.length ≤ a.buf.length := by
        unfold scanHeaders at k2
        rw [cache_whole o hx, Out.ok_bind] at k2
        obtain ⟨e, he, k2⟩ := Out.bind_eq_ok.1 k2
        injection k2 with k2; injection k2 with _ k2; injection k2 with _ k2; subst k2
        exact (Moves.adv he).suf.length
      have l7 : a.buf.length < c.buf.length := by
        have := List.length_pos_iff.2 hne
        rw [(adv_ok k1).1]; simp only [List.length_drop]; omega
      omega
    have := congrArg List.length hs
    rw [List.length_append] at this
    omega
  -- the scan without evaluation
  have hlz : scanBlockLazy o' k fold c = .ok (.block o' s c.stats k fold, st.cur) := by
    have hnil : HeadOk [] := fun b t h => by cases h
    unfold scanBlockLazy
    obtain ⟨c1', e1, h1'⟩ := blockHeader_back hx hx' hnil (c := c) (x := c1) hv (List.length_pos_iff.2 hne) (by rw [grow_nil]; exact h1) (by simp)
    rw [grow_nil] at e1; subst e1
    obtain ⟨d', e2, h2'⟩ := blockIndent_back hx hx' hnil (c := c1) (x := d) v1 (by rw [grow_nil]; exact h2) (by simp)
    have e2 : d = d' := by
      rw [e2]; obtain ⟨⟨a, b⟩, _, _, _⟩ := d'; unfold DetectSt.grow; simp
    subst e2
    have hl := blockLazyLoop_same hx hx' (st := _) (fuel' := c.buf.length + 1) v2
      (by have := m1.suf.length; simp only; omega) h3
    rw [h1', Out.ok_bind]
    simp only
    rw [h2', Out.ok_bind, hl, Out.ok_bind, ht, hs, slice_front hh, Out.ok_bind]
  refine ⟨.block o' s c.stats k fold, ?_⟩
  -- the evaluation
  rw [hcg] at h1
  obtain ⟨c1, rfl, h1'⟩ := blockHeader_back hx hx' hh (c := ⟨s, c.stats⟩) vs hs1 h1 (by omega)
  have m1' : Moves ⟨s, c.stats⟩ c1 := by
    have hr := m1.read
    have hsuf := m1.suf
    refine ⟨?_, ?_, fun _ => ?_⟩
    · obtain ⟨w, hw⟩ := hsuf
      refine ⟨w, ?_⟩
      rw [hs] at hw
      have hw : s ++ t = w ++ (c1.buf ++ t) := hw
      rw [← List.append_assoc] at hw
      exact List.append_cancel_right hw
    · rw [hs] at hr
      simp only [grow, List.length_append] at hr ⊢
      omega
    · exact valid_before (t := t) v1 hh
  have vc1 := m1'.valid vs
  obtain ⟨d, rfl, h2'⟩ := blockIndent_back hx hx' hh (c := c1) vc1 h2 (by omega)
  have m2' : Moves c1 d.cur := by
    have hr := m2.read
    have hsuf := m2.suf
    refine ⟨?_, ?_, fun _ => ?_⟩
    · obtain ⟨w, hw⟩ := hsuf
      refine ⟨w, ?_⟩
      have hw : c1.buf ++ t = w ++ (d.cur.buf ++ t) := hw
      rw [← List.append_assoc] at hw
      exact List.append_cancel_right hw
    · have hr : c1.stats.read + (c1.buf ++ t).length = d.cur.stats.read + (d.cur.buf ++ t).length := hr
      simp only [List.length_append] at hr
      omega
    · exact valid_before (t := t) v2 hh
  have mr := m1'.read
  have mr2 := m2'.read
  have ml := m1'.suf.length
  have ml2 := m2'.suf.length
  simp only at mr ml
  have h3 : blockLoop o (s ++ t) c.stats.read fold d.indent (c.buf.length + 1)
      (BlockSt.grow t
        { cur := d.cur
          scratch := if d.canBorrow then [] else List.replicate d.lines 0x0A
          canBorrow := d.canBorrow
          start := if d.canBorrow then d.cur.stats.read - c.stats.read else 0 }) = .ok st := by
    rw [← hs]; exact h3
  obtain ⟨st', e3, h3', hB⟩ := blockLoop_back hx hx' hh (fuel' := s.length + 1) (m2'.valid vc1) (by simp only; omega)
    ⟨m1'.suf.trans m2'.suf, (by simp only; omega), (fun hcb => by simp only at hcb ⊢; rw [if_pos hcb]; exact Nat.le_refl _), (by simp), (by simp)⟩ h3 ht
  subst e3
  rw [hs] at h4
  obtain ⟨v', h4', hor⟩ := scanChomp_back hh vs (by rw [← ht]; rw [ht]; exact v3) hB h4
  refine ⟨.Scalar v' (blockStyle fold), hlz, ?_, ?_⟩
  · unfold Lazy.intoToken
    simp only
    rw [scanBlockEager_eq]
    simp only
    rw [h1', Out.ok_bind]
    simp only
    rw [h2', Out.ok_bind, h3', Out.ok_bind, h4', Out.ok_bind, Out.ok_bind]
  · rcases hor with rfl | ⟨hcl, b, hb, rfl⟩
    · exact .inl htok
    · right
      refine ⟨?_, v', b, hb, rfl, htok.symm⟩
      intro hsc
      rw [← hcg] at h1
      exact blockHeader_chomp hx h1 hsc hcl

end Yary.Deferred
