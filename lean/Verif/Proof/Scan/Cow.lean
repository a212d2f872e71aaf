import Verif.Proof.Scan.Jams
import Verif.Proof.Scan.PlainText
import Verif.Spec.Cow

/-! # Borrowed contents -/

namespace Yary

open Spec
open Out (Sat)

variable {opts : SFlags} {single : Bool} {c : Cur}

/-! ### Lines -/

theorem sameLine_nil {t : Str} : SameLine [] t := fun i hi => absurd hi (by simp)

theorem sameLine_append {p q t : Str} : SameLine (p ++ q) t ↔ SameLine p (q ++ t) ∧ SameLine q t := by
  constructor
  · intro h
    refine ⟨fun i hi => ?_, fun i hi => ?_⟩
    · have := h i (by simp; omega)
      rwa [List.append_assoc] at this
    · have := h (p.length + i) (by simp; omega)
      rwa [List.append_assoc, ← List.drop_drop, List.drop_left] at this
  · rintro ⟨h1, h2⟩ i hi
    rw [List.append_assoc]
    rcases Nat.lt_or_ge i p.length with h | h
    · exact h1 i h
    · obtain ⟨j, rfl⟩ := Nat.exists_eq_add_of_le h
      rw [← List.drop_drop, List.drop_left]
      exact h2 j (by simp at hi; omega)

theorem sameLine_one {b : Byte} {t : Str} : SameLine [b] t ↔ isBreak (b :: t) = false := by
  constructor
  · intro h
    exact not_break.2 (h 0 (by simp))
  · intro h
    exact sameLine_cons (l := []) h sameLine_nil

theorem not_sameLine {w t : Str} (h : isBreak (w ++ t) = true) (hw : w ≠ []) : ¬ SameLine w t := by
  intro hs
  have := hs 0 (List.length_pos_iff.2 hw)
  exact this (atBreak_iff.2 h)

/-- The lines counted are those of the text. -/
theorem Reads.sameLine {a b : Cur} (h : Reads a b) : ∃ p, a.buf = p ++ b.buf ∧ (b.stats.lines = a.stats.lines ↔ SameLine p b.buf) := by
  induction h with
  | refl c => exact ⟨[], rfl, fun _ => sameLine_nil, fun _ => rfl⟩
  | @byte b t m c' hb _ ih =>
    obtain ⟨p, h1, h2⟩ := ih
    simp only at h1
    refine ⟨b :: p, by simp [h1], ?_⟩
    have := sameLine_append (p := [b]) (q := p) (t := c'.buf)
    rw [List.cons_append, List.nil_append] at this
    rw [this, sameLine_one, ← h2, ← h1]
    simp [hb, MStats.update]
  | @line c c' hb h ih =>
    obtain ⟨p, h1, -⟩ := ih
    simp only at h1
    have hpos := breakLen_pos.2 hb
    refine ⟨c.buf.take (breakLen c.buf) ++ p, ?_, fun h' => ?_, fun h' => ?_⟩
    · rw [List.append_assoc, ← h1, List.take_append_drop]
    · have := h.lines_le
      simp [MStats.update] at this
      omega
    · rw [sameLine_append, ← h1] at h'
      have hle := breakLen_le c.buf
      refine absurd h'.1 (not_sameLine (by rw [List.take_append_drop]; exact hb) ?_)
      intro h0
      have := congrArg List.length h0
      simp at this
      rcases this with h0 | h0
      · omega
      · rw [h0] at hb; simp [isBreak_nil] at hb

/-! ### Quoted scalars -/

theorem verbatim_nil {t : Str} : Verbatim single [] t := ⟨by simp, sameLine_nil⟩

theorem verbatim_append {p q t : Str} : Verbatim single (p ++ q) t ↔ Verbatim single p (q ++ t) ∧ Verbatim single q t := by
  unfold Verbatim
  rw [sameLine_append]
  simp only [List.mem_append]
  constructor
  · rintro ⟨h1, h2, h3⟩
    exact ⟨⟨fun b hb => h1 b (.inl hb), h2⟩, fun b hb => h1 b (.inr hb), h3⟩
  · rintro ⟨⟨h1, h2⟩, h3, h4⟩
    exact ⟨fun b hb => hb.elim (h1 b) (h3 b), h2, h4⟩

/-- From `st` to `st'` the text `p` is read, and the borrow is kept if it stands for itself. -/
def FlowKeeps (single : Bool) (st st' : FlowSt) : Prop :=
  ∃ p, st.cur.buf = p ++ st'.cur.buf ∧ (st'.canBorrow = true ↔ st.canBorrow = true ∧ Verbatim single p st'.cur.buf)

theorem FlowKeeps.refl {st : FlowSt} : FlowKeeps single st st := ⟨[], rfl, fun h => ⟨h, verbatim_nil⟩, fun h => h.1⟩

theorem FlowKeeps.trans {a b d : FlowSt} (h : FlowKeeps single a b) (h' : FlowKeeps single b d) : FlowKeeps single a d := by
  obtain ⟨p, h1, h2⟩ := h
  obtain ⟨q, h3, h4⟩ := h'
  refine ⟨p ++ q, by rw [h1, h3, List.append_assoc], ?_⟩
  rw [h4, h2, verbatim_append, h3]
  constructor
  · rintro ⟨⟨a1, a2⟩, a3⟩; exact ⟨a1, a2, a3⟩
  · rintro ⟨a1, a2, a3⟩; exact ⟨⟨a1, a2⟩, a3⟩

/-- A copy. -/
theorem FlowKeeps.lost {a b : FlowSt} {p : Str} (hp : a.cur.buf = p ++ b.cur.buf) (hb : b.canBorrow = false) (hv : ¬ Verbatim single p b.cur.buf) :
    FlowKeeps single a b := ⟨p, hp, fun h => (by rw [hb] at h; cases h), fun h => absurd h.2 hv⟩

theorem flowNoBorrow_ok {base : Str} {st st' : FlowSt} (h : st.noBorrow base = .ok st') :
    st'.canBorrow = false ∧ st'.cur = st.cur ∧ st'.whitespace = st.whitespace ∧ st'.lines = st.lines ∧ st'.escapedBreak = st.escapedBreak := by
  unfold FlowSt.noBorrow at h
  split at h
  · obtain ⟨s, -, h⟩ := Out.bind_eq_ok.1 h
    cases h
    exact ⟨rfl, rfl, rfl, rfl, rfl⟩
  · rename_i hb
    cases h
    exact ⟨by simpa using hb, rfl, rfl, rfl, rfl⟩

theorem flowPush_keeps {st st' : FlowSt} {b : Byte} {t : Str} (hb : st.cur.buf = b :: t) (hn : isBreak st.cur.buf = false)
    (hm : b ≠ if single then 0x27 else 0x5C) (h : st.push = .ok st') :
    FlowKeeps single st st' ∧ st'.lines = st.lines ∧ st'.canBorrow = st.canBorrow := by
  unfold FlowSt.push at h
  obtain ⟨c', h1, h⟩ := Out.bind_eq_ok.1 h
  cases adv_par _ h1
  cases h
  refine ⟨⟨[b], by simp [hb], ?_⟩, rfl, rfl⟩
  simp only [hb, List.drop_succ_cons, List.drop_zero]
  have : Verbatim single [b] t := ⟨by simpa using hm, sameLine_one.2 (hb ▸ hn)⟩
  exact ⟨fun h => ⟨h, this⟩, fun h => h.1⟩

theorem flowWord_keeps {base : Str} {fuel : Nat} {st : FlowSt} :
    Out.Par (flowWord opts base single fuel st) (fun r => FlowKeeps single st r.2 ∧ (r.1 = true → ∃ t, r.2.cur.buf = quoteMark single :: t)) := by
  induction fuel generalizing st with
  | zero => simp [flowWord]
  | succ fuel ih =>
    rw [flowWord]
    split
    · simp only [Out.Par.ok]
      exact ⟨.refl, fun h => (by cases h)⟩
    · rename_i hz
      obtain ⟨b, t, hbuf, hnb, hbl⟩ := isWhiteSpaceZ_false hz
      have next : ∀ st' : FlowSt, FlowKeeps single st st' →
          Out.Par (flowWord opts base single fuel st') (fun r => FlowKeeps single st r.2 ∧ (r.1 = true → ∃ t, r.2.cur.buf = quoteMark single :: t)) :=
        fun st' hk => ih.mono fun r hr => ⟨hk.trans hr.1, hr.2⟩
      refine .skip fun _ => ?_
      split
      · rename_i h
        simp only [Bool.and_eq_true] at h
        obtain ⟨rfl, h⟩ := h
        obtain ⟨u, hu⟩ := List.isPrefixOf_iff_prefix.1 h
        have hcur : st.cur.buf = 0x27 :: 0x27 :: u := by simpa using hu.symm
        intro r hr
        obtain ⟨st1, h1, hr⟩ := Out.bind_eq_ok.1 hr
        obtain ⟨e1, e2, -⟩ := flowNoBorrow_ok h1
        obtain ⟨c', h2, hr⟩ := Out.bind_eq_ok.1 hr
        cases adv_par _ h2
        refine next _ ?_ _ hr
        refine .lost (p := [0x27, 0x27]) (by simp [e2, hcur]) e1 ?_
        rintro ⟨hv, -⟩
        exact hv 0x27 (by simp) rfl
      · split
        · rename_i h
          simp only [Out.Par.ok]
          refine ⟨.refl, fun _ => ⟨t, ?_⟩⟩
          rw [hbuf] at h ⊢
          cases single <;> simp [startsWith, quoteMark] at h ⊢ <;> exact h
        · rename_i hq
          split
          · rename_i h
            simp only [Bool.and_eq_true, Bool.not_eq_true'] at h
            obtain ⟨⟨rfl, h1⟩, -⟩ := h
            obtain ⟨u, hu⟩ := startsWith_iff.1 h1
            intro r hr
            obtain ⟨st1, h1, hr⟩ := Out.bind_eq_ok.1 hr
            obtain ⟨e1, e2, -⟩ := flowNoBorrow_ok h1
            obtain ⟨c', h2, hr⟩ := Out.bind_eq_ok.1 hr
            cases adv_par _ h2
            refine next _ ?_ _ hr
            refine .lost (p := [0x5C]) (by simp [e2, hu]) e1 ?_
            rintro ⟨hv, -⟩
            exact hv 0x5C (by simp) rfl
          · split
            · rename_i h
              simp only [Bool.and_eq_true, Bool.not_eq_true'] at h
              obtain ⟨rfl, h1⟩ := h
              obtain ⟨u, hu⟩ := startsWith_iff.1 h1
              intro r hr
              obtain ⟨st1, h1, hr⟩ := Out.bind_eq_ok.1 hr
              obtain ⟨e1, e2, -⟩ := flowNoBorrow_ok h1
              obtain ⟨⟨w, n⟩, h2, hr⟩ := Out.bind_eq_ok.1 hr
              obtain ⟨c', h3, hr⟩ := Out.bind_eq_ok.1 hr
              cases adv_par _ h3
              rw [e2, hu] at h2
              obtain ⟨hn, hn', -⟩ := (flowUnescape_sat (P := True)).of_ok h2
              refine next _ ?_ _ hr
              refine .lost (p := st.cur.buf.take n) (by simp [e2]) e1 ?_
              rintro ⟨hv, -⟩
              refine hv 0x5C ?_ rfl
              rw [hu]
              obtain ⟨k, rfl⟩ : ∃ k, n = k + 1 := ⟨n - 1, by simp at hn; omega⟩
              simp
            · rename_i hne
              intro r hr
              obtain ⟨st1, h1, hr⟩ := Out.bind_eq_ok.1 hr
              refine next _ (flowPush_keeps hbuf hnb ?_ h1).1 _ hr
              rintro rfl
              cases single
              · simp [hbuf, startsWith] at hne
              · simp [hbuf, startsWith] at hq

theorem flowSpace_keeps {base : Str} {fuel : Nat} {st : FlowSt} (h0 : st.lines = 0 ∨ st.canBorrow = false) :
    Out.Par (flowSpace opts base fuel st) (fun st' => FlowKeeps single st st' ∧ (st'.lines = 0 ∨ st'.canBorrow = false)) := by
  induction fuel generalizing st with
  | zero => simp [flowSpace]
  | succ fuel ih =>
    rw [flowSpace]
    refine .skip fun _ => ?_
    split
    · rename_i hbl
      obtain ⟨b, t, hbuf, hb⟩ := isBlank_iff.1 hbl
      intro r hr
      obtain ⟨st1, h1, hr⟩ := Out.bind_eq_ok.1 hr
      obtain ⟨k1, k2, k3⟩ := flowPush_keeps (single := single) hbuf (isBlank_break hbl) (by rcases hb with rfl | rfl <;> cases single <;> decide) h1
      obtain ⟨g1, g2⟩ := ih (st := { st1 with whitespace := st1.whitespace + 1 }) (by simp only [k2, k3]; exact h0) _ hr
      exact ⟨k1.trans g1, g2⟩
    · split
      · rename_i hbr
        intro r hr
        obtain ⟨st1, h1, hr⟩ := Out.bind_eq_ok.1 hr
        obtain ⟨e1, e2, -⟩ := flowNoBorrow_ok h1
        obtain ⟨c', h2, hr⟩ := Out.bind_eq_ok.1 hr
        cases line_par _ h2
        have hcb : (if st1.escapedBreak = some .Start then { st1 with whitespace := 0, escapedBreak := some .Started } else st1 : FlowSt).canBorrow = false := by
          split <;> exact e1
        dsimp only at hr
        generalize (if st1.escapedBreak = some .Start then { st1 with whitespace := 0, escapedBreak := some .Started } else st1 : FlowSt) = x at hr hcb
        have hcb' : ({ x with
          cur := ⟨st1.cur.buf.drop (breakLen st1.cur.buf), st1.cur.stats.update (breakLen st1.cur.buf) 1 0⟩, lines := x.lines + 1 } : FlowSt).canBorrow = false := hcb
        obtain ⟨g1, g2⟩ := ih (.inr hcb') _ hr
        refine ⟨FlowKeeps.trans ?_ g1, g2⟩
        refine .lost (p := st.cur.buf.take (breakLen st.cur.buf)) ?_ hcb' ?_
        · simp [e2]
        · rintro ⟨-, hv⟩
          refine not_sameLine (by simp only [e2, List.take_append_drop]; exact hbr) ?_ hv
          intro h0
          have hpos := breakLen_pos.2 hbr
          have hle := breakLen_le st.cur.buf
          have := congrArg List.length h0
          simp at this
          rcases this with h0 | h0
          · omega
          · rw [h0] at hbr; simp [isBreak_nil] at hbr
      · simp only [Out.Par.ok]
        exact ⟨.refl, h0⟩

theorem flowJoin_keeps {base : Str} {st : FlowSt} (h0 : st.lines = 0 ∨ st.canBorrow = false) :
    Out.Par (flowJoin base st) (fun st' => FlowKeeps single st st') := by
  unfold flowJoin
  split
  · simp only [Out.Par.ok]; exact .refl
  all_goals
    rename_i hl
    have hb : st.canBorrow = false := by
      rcases h0 with h | h
      · rw [hl] at h; cases h
      · exact h
    intro r hr
    obtain ⟨st1, h1, hr⟩ := Out.bind_eq_ok.1 hr
    obtain ⟨e1, e2, -⟩ := flowNoBorrow_ok h1
    obtain ⟨s, -, hr⟩ := Out.bind_eq_ok.1 hr
    cases hr
    exact ⟨[], by simp [e2], fun h => (by simp [e1] at h), fun h => (by rw [hb] at h; cases h.1)⟩

theorem flowLoop_keeps {base : Str} {fuel : Nat} {st : FlowSt} :
    Out.Par (flowLoop opts base single fuel st) (fun st' => FlowKeeps single st st' ∧ ∃ t, st'.cur.buf = quoteMark single :: t) := by
  induction fuel generalizing st with
  | zero => simp [flowLoop]
  | succ fuel ih =>
    rw [flowLoop]
    refine .skip fun _ => ?_
    split
    · simp
    split
    · simp
    refine .skip fun _ => ?_
    refine flowWord_keeps.bind ?_
    rintro ⟨done, st1⟩ ⟨k1, k2⟩
    have k1 : FlowKeeps single st st1 := k1
    dsimp only at k2 ⊢
    split
    · rename_i hd
      simp only [Out.Par.ok]
      exact ⟨k1, k2 hd⟩
    · refine (flowSpace_keeps (single := single) (.inl rfl)).bind ?_
      rintro st2 ⟨g1, g2⟩
      refine (flowJoin_keeps (single := single) g2).bind ?_
      intro st3 g3
      refine ih.mono ?_
      rintro st4 ⟨g4, g5⟩
      have g1 : FlowKeeps single st1 st2 := g1
      exact ⟨((k1.trans g1).trans g3).trans g4, g5⟩

/-- **Quoted scalars** are borrowed if they stand for themselves. -/
theorem scanFlowEager_cow {q : Byte} {t : Str} {m : MStats} {v : Str} {c2 : Cur} {sty : ScalarStyle}
    (h : scanFlowEager opts single ⟨q :: t, m⟩ = .ok (.Scalar v sty, c2)) :
    ∃ w, t = w ++ quoteMark single :: c2.buf ∧
      (Verbatim single w (quoteMark single :: c2.buf) → flowCow opts single ⟨q :: t, m⟩ = .ok [.Borrowed 1 (1 + w.length)] ∧ v = w) ∧
      (¬ Verbatim single w (quoteMark single :: c2.buf) → flowCow opts single ⟨q :: t, m⟩ = .ok [.Owned v]) := by
  unfold scanFlowEager at h
  obtain ⟨_, h0, h⟩ := Out.bind_eq_ok.1 h
  obtain ⟨c1, h1, h⟩ := Out.bind_eq_ok.1 h
  obtain ⟨st, h2, h⟩ := Out.bind_eq_ok.1 h
  obtain ⟨s, h3, h⟩ := Out.bind_eq_ok.1 h
  obtain ⟨_, -, h⟩ := Out.bind_eq_ok.1 h
  obtain ⟨c', h4, h⟩ := Out.bind_eq_ok.1 h
  cases h
  cases adv_par _ h4
  obtain ⟨⟨w, k1, k2⟩, r, hr⟩ := flowLoop_keeps _ h2
  have e1 := adv_par _ h1
  subst e1
  simp only [List.drop_succ_cons, List.drop_zero, true_and] at k1 k2
  have hlen : (q :: t).length - st.cur.buf.length = 1 + w.length := by rw [k1]; simp; omega
  have hcow : flowCow opts single ⟨q :: t, m⟩ = if st.canBorrow then .ok [.Borrowed 1 (1 + w.length)] else .ok [.Owned st.scratch] := by
    unfold flowCow
    rw [h0, Out.ok_bind, h1, Out.ok_bind, h2, Out.ok_bind]
    dsimp only
    rw [hlen]
  unfold flowSlice at h3
  rw [hcow]
  rw [hr] at k1 k2
  refine ⟨w, by simpa [hr] using k1, fun hv => ?_, fun hv => ?_⟩
  · have hb := k2.2 (by simpa [hr] using hv)
    rw [if_pos hb] at h3 ⊢
    rw [hlen] at h3
    have := slice_par _ h3
    refine ⟨rfl, ?_⟩
    rw [this, k1]
    simp
  · have hb : ¬ st.canBorrow = true := fun hb => hv (by simpa [hr] using k2.1 hb)
    rw [if_neg hb] at h3 ⊢
    unfold fromUtf8Unwrap at h3
    split at h3
    · cases h3; rfl
    · cases h3

/-! ### Plain scalars -/

theorem skips_sameLine {s r : Str} {n : Nat} (h : Skips false s n r) : ∃ z, s = z ++ r ∧ (n = 0 ↔ SameLine z r) := by
  induction h with
  | done => exact ⟨[], rfl, fun _ => sameLine_nil, fun _ => rfl⟩
  | @blank b t r n hb _ ih =>
    obtain ⟨z, rfl, h2⟩ := ih
    refine ⟨b :: z, rfl, ?_⟩
    have := sameLine_append (p := [b]) (q := z) (t := r)
    rw [List.cons_append, List.nil_append] at this
    rw [this, sameLine_one, ← h2]
    have : isBreak (b :: (z ++ r)) = false := isBlank_break (isBlank_iff.2 ⟨b, _, rfl, hb⟩)
    simp [this]
  | @line w t r n hw _ ih =>
    obtain ⟨z, rfl, -⟩ := ih
    refine ⟨w ++ z, by rw [List.append_assoc], fun h => (by omega), fun h => ?_⟩
    rw [sameLine_append] at h
    refine absurd h.1 (not_sameLine (atBreak_iff.1 ⟨w, hw.1, List.prefix_append ..⟩) ?_)
    rintro rfl
    exact absurd hw.1 (by decide)
  | comment hc => cases hc

/-- The state of the loop over a plain scalar: the scalar ends at `cs`. -/
def PlainAt (c : Cur) (st : PlainSt) : Prop :=
  (∃ v, PlainInv c st v) ∧ ∃ cs n, cs.stats = st.scalarStats ∧ Reads c cs ∧ Reads cs st.cur ∧ Skips false cs.buf n st.cur.buf

theorem plainLoop_at {indent : Nat} {block : Bool} {fuel : Nat} {st : PlainSt} (hi : PlainAt c st) :
    Out.Par (plainLoop opts c.buf indent block fuel st) (PlainAt c) := by
  induction fuel generalizing st with
  | zero => simp [plainLoop]
  | succ fuel ih =>
    rw [plainLoop]
    refine .skip fun _ => ?_
    split
    · exact Out.Par.ok.2 hi
    split
    · exact Out.Par.ok.2 hi
    split
    · exact Out.Par.ok.2 hi
    split
    · exact Out.Par.ok.2 hi
    obtain ⟨⟨v, hv⟩, -⟩ := hi
    have hv0 : PlainInv c { st with whitespace := 0, lines := 0 } v := ⟨hv.reads, hv.borrow, hv.copy⟩
    refine (plainWord_par hv0).bind ?_
    rintro st1 ⟨w, hv1, -, -, -, hr1, -, -, hw1, hl1⟩
    have hv2 : PlainInv c { st1 with scalarStats := st1.cur.stats } (v ++ w) := ⟨hv1.reads, hv1.borrow, hv1.copy⟩
    refine (plainSpace_par hv2 fun _ => hl1).bind ?_
    rintro st2 ⟨n, p, bl, hs, hp, hr2, hv3, hw2, hl2, hnp, hb, hss, -⟩
    have hv4 : PlainInv c { st2 with outdent := block && decide (st2.cur.stats.column < indent) } (v ++ w ++ bl) := ⟨hv3.reads, hv3.borrow, hv3.copy⟩
    have hw2 : st2.whitespace = bl.length := by
      rw [hw2]; show st1.whitespace + _ = _; rw [hw1]; simp
    have hl2 : st2.lines = n := by
      rw [hl2]; show st1.lines + _ = _; rw [hl1]; simp
    refine (plainJoin_par hv4 hw2 hl2 hb hnp).bind ?_
    rintro st3 ⟨hv5, -, hc3, hs3, -⟩
    refine ih ⟨⟨_, hv5⟩, st1.cur, n, ?_, hv1.reads, ?_, ?_⟩
    · rw [hs3]; exact hss.symm
    · rw [hc3]; exact hr2
    · rw [hc3]; exact hs

/-- **Plain scalars** are borrowed if they are in one line, and the next token, or what else follows, is in it too. -/
theorem scanPlainEager_cow {indent : Nat} {block : Bool} {v : Str} {c2 : Cur} {sty : ScalarStyle} (hws : isWhiteSpace c.buf = false)
    (h : scanPlainEager opts indent block c = .ok (.Scalar v sty, c2)) :
    ∃ w n t, c.buf = w ++ c2.buf ∧ Skips false c2.buf n t ∧
      (SameLine w c2.buf ∧ n = 0 → plainCow opts indent block c = .ok [.Borrowed 0 w.length] ∧ v = w) ∧
      (¬ (SameLine w c2.buf ∧ n = 0) → plainCow opts indent block c = .ok [.Owned v]) := by
  rw [scanPlainEager_eq] at h
  obtain ⟨_, h0, h⟩ := Out.bind_eq_ok.1 h
  split at h
  · cases h
  obtain ⟨st, h1, h⟩ := Out.bind_eq_ok.1 h
  obtain ⟨s, h2, h⟩ := Out.bind_eq_ok.1 h
  obtain ⟨r, h3, h⟩ := Out.bind_eq_ok.1 h
  cases h
  have hst : Skips false c.buf 0 c.buf := by
    obtain ⟨k1, k2⟩ := not_blank.1 (Bool.or_eq_false_iff.1 hws).1
    exact .done k1 k2 (not_break.1 (Bool.or_eq_false_iff.1 hws).2) (fun h => (by cases h))
  obtain ⟨⟨x, hx⟩, cs, n, e1, r1, r2, hsk⟩ := plainLoop_at (c := c) (st := { cur := c, scalarStats := c.stats })
    ⟨⟨[], .refl c, fun _ => ⟨rfl, rfl, rfl⟩, fun h => (by cases h)⟩, c, 0, rfl, .refl c, .refl c, hst⟩ _ h1
  obtain ⟨w, p1, p2⟩ := r1.sameLine
  obtain ⟨z, q1, q2⟩ := r2.sameLine
  obtain ⟨z', q3, q4⟩ := skips_sameLine hsk
  obtain rfl : z' = z := List.append_cancel_right (q3.symm.trans q1)
  have hread := r1.read
  have hadv : st.scalarStats.read - c.stats.read = w.length := by
    rw [← e1]
    rw [p1] at hread
    simp at hread
    omega
  rw [hadv] at h2 h3
  have hc2 : c2.buf = cs.buf := by
    unfold Cur.skip at h3
    split at h3
    · cases h3; simp [p1]
    · cases h3
  have hb : st.canBorrow = true ↔ SameLine w c2.buf ∧ n = 0 := by
    rw [hc2, ← p2, q4, ← q2]
    have l1 := r1.lines_le
    have l2 := r2.lines_le
    constructor
    · intro hb
      have := (hx.borrow hb).2.2
      omega
    · intro hl
      cases hb : st.canBorrow with
      | true => rfl
      | false => have := (hx.copy hb).2; omega
  have hcow : plainCow opts indent block c = if st.canBorrow then .ok [.Borrowed 0 w.length] else
      (truncEnd st.scratch (st.whitespace + st.lines)).bind fun s => .ok [.Owned s] := by
    unfold plainCow
    rw [h1, Out.ok_bind, hadv]
    rfl
  rw [hcow]
  refine ⟨w, n, st.cur.buf, by rw [hc2]; exact p1, by rw [hc2]; exact hsk, fun hv => ?_, fun hv => ?_⟩
  · have hb := hb.2 hv
    unfold plainSlice at h2
    rw [if_pos hb] at h2 ⊢
    refine ⟨rfl, ?_⟩
    rw [slice_par _ h2, p1]
    simp
  · have hb : ¬ st.canBorrow = true := fun h => hv (hb.1 h)
    unfold plainSlice at h2
    rw [if_neg hb] at h2 ⊢
    obtain ⟨s', h4, h5⟩ := Out.bind_eq_ok.1 h2
    rw [h4]
    show Out.ok _ = _
    unfold fromUtf8Unwrap at h5
    split at h5
    · cases h5; rfl
    · cases h5

/-! ### Slices -/

theorem isBoundary_le {s : Str} {i : Nat} (h : isBoundary s i = true) : i ≤ s.length := by
  unfold isBoundary at h
  simp only [Bool.or_eq_true, beq_iff_eq] at h
  rcases h with rfl | h
  · omega
  · cases hi : s[i]? with
    | none => rw [hi] at h; simp only [beq_iff_eq] at h; omega
    | some b =>
      obtain ⟨h, -⟩ := List.getElem?_eq_some_iff.1 hi
      omega

theorem cowIs_range {text : Str} {a b : Nat} (h1 : a ≤ b) (h2 : b ≤ text.length) : CowIs text (.Borrowed a b) ((text.drop a).take (b - a)) := by
  refine ⟨text.take a, text.drop b, ?_, ?_, ?_⟩
  · have : text.drop b = (text.drop a).drop (b - a) := by rw [List.drop_drop]; congr 1; omega
    rw [this, List.take_append_drop, List.take_append_drop]
  · rw [List.length_take]; omega
  · rw [List.length_take, List.length_take, List.length_drop]; omega

theorem cowIs_slice {text v : Str} {a b : Nat} (h : slice (ε := ScanError) text a b = .ok v) : CowIs text (.Borrowed a b) v := by
  have e := slice_par _ h
  unfold slice at h
  split at h
  · rename_i hb
    simp only [Bool.and_eq_true, decide_eq_true_eq] at hb
    rw [e]
    exact cowIs_range hb.1.1 (isBoundary_le hb.2)
  · cases h

theorem cowIs_value {text v : Str} {x : Cow} (h : CowIs text x v) : x.value text = v := by
  cases x with
  | Borrowed a b =>
    obtain ⟨p, q, rfl, rfl, rfl⟩ := h
    simp [Cow.value]
  | Owned s => exact h.symm

/-! ### Block scalars -/

theorem chompCow_is {text v : Str} {style : ChompStyle} {a b k : Nat} (h : chompBorrow text style a b k = .ok v) :
    (∃ x y, chompCow text style a b k = .Borrowed x y) ∧ CowIs text (chompCow text style a b k) v := by
  unfold chompBorrow at h
  unfold chompCow
  split at h
  · split at h
    · rename_i hk
      obtain ⟨rest, h1, h2⟩ := Out.bind_eq_ok.1 h
      have e := slice_par _ h1
      have : (text.drop b).take (text.length - b) = text.drop b := by
        rw [List.take_of_length_le]; simp
      rw [this] at e
      subst e
      simp only [hk, ↓reduceIte]
      exact ⟨⟨_, _, rfl⟩, cowIs_slice h2⟩
    · rename_i hk
      simp only [hk, ↓reduceIte]
      exact ⟨⟨_, _, rfl⟩, cowIs_slice h⟩
  · exact ⟨⟨_, _, rfl⟩, cowIs_slice h⟩
  · exact ⟨⟨_, _, rfl⟩, cowIs_slice h⟩

theorem scanBlockEager_cow {b : Nat} {fold : Bool} {tok : Token} {c2 : Cur} (h : scanBlockEager opts b fold c = .ok (tok, c2)) :
    ∃ l, blockCow opts b fold c = .ok l ∧ CowsAre c.buf l (contents tok) := by
  rw [scanBlockEager_eq] at h
  obtain ⟨⟨chomp, explicit, c1⟩, h1, h⟩ := Out.bind_eq_ok.1 h
  obtain ⟨d, h2, h⟩ := Out.bind_eq_ok.1 h
  obtain ⟨st, h3, h⟩ := Out.bind_eq_ok.1 h
  obtain ⟨s, h4, h⟩ := Out.bind_eq_ok.1 h
  cases h
  have hr := Nat.le_trans (blockHeader_read h1) (blockIndent_read h2)
  unfold blockCow
  rw [h1, Out.ok_bind]
  simp only
  rw [h2, Out.ok_bind, blockBegin_eq hr, Out.ok_bind, blockLines_eq hr, h3, Out.ok_bind]
  split
  · rename_i hb
    simp only [Bool.and_eq_true, Bool.not_eq_true'] at hb
    unfold scanChomp at h4
    simp only [hb.1, hb.2, Bool.false_eq_true, ↓reduceIte] at h4
    exact ⟨_, rfl, (chompCow_is h4).2, trivial⟩
  · rw [h4]
    exact ⟨_, rfl, rfl, trivial⟩

/-- **Block scalars** of one line, without empty lines before it, are borrowed, unless more than one line break after it stays. -/
theorem block_text_cow (hx : opts.extendable = false) {x : BlockScalar} {b n j : Nat} {q : Str} {m : MStats} (hok : x.Ok) (hbe : x.Before n j q)
    (hb : b < n) :
    ∃ l, blockCow opts b x.fold ⟨x.written n ++ (spaces j ++ q), m⟩ = .ok l ∧
      (x.first.empty = 0 ∧ x.more = [] ∧ (x.chomp = .keep → x.breaks ≤ 1) → AllBorrowed l) ∧
      (¬ (x.first.empty = 0 ∧ x.more = [] ∧ (x.chomp = .keep → x.breaks ≤ 1)) → AllOwned l) := by
  obtain ⟨c1, d, st, h1, h2, h3, h4, -, h6, h7⟩ := scanBlockEager_parts (m := m) hx hok hbe hb
  have hr := Nat.le_trans (blockHeader_read h1) (blockIndent_read h2)
  unfold blockCow
  rw [h1, Out.ok_bind]
  simp only
  rw [h2, Out.ok_bind, blockBegin_eq hr, Out.ok_bind, blockLines_eq hr, h3, Out.ok_bind]
  have hch : decide (chompStyle x.chomp = .Keep) = true ↔ x.chomp = .keep := by cases x.chomp <;> simp [chompStyle]
  by_cases hc : (st.canBorrow && !(decide (chompStyle x.chomp = .Keep) && decide (1 < st.lines))) = true
  · rw [if_pos hc]
    simp only [Bool.and_eq_true, Bool.not_eq_true'] at hc
    refine ⟨_, rfl, fun _ => ?_, fun h => absurd ?_ h⟩
    · unfold scanChomp at h4
      simp only [hc.1, hc.2, Bool.false_eq_true, ↓reduceIte] at h4
      intro y hy
      rw [List.mem_singleton] at hy
      subst hy
      exact (chompCow_is h4).1
    · refine ⟨(h7.1 hc.1).1, (h7.1 hc.1).2, fun hk => ?_⟩
      have := hc.2
      rw [hch.2 hk, h6] at this
      simpa using this
  · rw [if_neg hc, h4]
    refine ⟨_, rfl, fun h => absurd ?_ hc, fun _ => ?_⟩
    · simp only [Bool.and_eq_true, Bool.not_eq_true']
      refine ⟨h7.2 ⟨h.1, h.2.1⟩, ?_⟩
      cases hk : decide (chompStyle x.chomp = .Keep) with
      | false => rfl
      | true =>
        have := h.2.2 (hch.1 hk)
        rw [h6]
        simpa using this
    · intro y hy
      rw [List.mem_singleton] at hy
      exact ⟨_, hy⟩

/-! ### Anchors and aliases -/

theorem scanAnchor_cow {isAlias : Bool} {tok : Token} {c2 : Cur} (h : scanAnchor opts isAlias c = .ok (tok, c2)) (hne : c.buf ≠ []) :
    ∃ l, anchorCow opts c = .ok l ∧ CowsAre c.buf l (contents tok) ∧ AllBorrowed l := by
  unfold scanAnchor at h
  obtain ⟨c1, h1, h⟩ := Out.bind_eq_ok.1 h
  obtain ⟨n, h2, h⟩ := Out.bind_eq_ok.1 h
  have e1 := adv_par _ h1
  obtain ⟨hn, -⟩ := (takeWhileLen_sat (P := True) c1.buf).par _ h2
  obtain ⟨c3, h3, h⟩ := Out.bind_eq_ok.1 h
  unfold anchorCow
  rw [h1, Out.ok_bind, h2, Out.ok_bind]
  refine ⟨_, rfl, ?_, fun x hx => ⟨_, _, List.mem_singleton.1 hx⟩⟩
  have hl : 1 ≤ c.buf.length := by cases hb : c.buf <;> simp_all
  have : contents tok = [c1.buf.take n] := by
    split at h
    · cases h
    · obtain ⟨_, -, h⟩ := Out.bind_eq_ok.1 h
      obtain ⟨_, -, h⟩ := Out.bind_eq_ok.1 h
      cases h
      cases isAlias <;> rfl
  rw [this]
  refine ⟨?_, trivial⟩
  subst e1
  have hn : n ≤ c.buf.length - 1 := by simpa using hn
  have := cowIs_range (text := c.buf) (a := 1) (b := 1 + n) (by omega) (by omega)
  simpa using this

/-! ### Tags -/

theorem uriLoop_borrow {verbatim : Bool} {base : Str} {fuel : Nat} {st : UriSt} :
    Out.Par (scanUriLoop opts verbatim base fuel st) (fun st' => ∃ w, st.cur.buf = w ++ st'.cur.buf ∧
      (st'.canBorrow = true ↔ st.canBorrow = true ∧ b! '%' ∉ w)) := by
  induction fuel generalizing st with
  | zero => simp [scanUriLoop]
  | succ fuel ih =>
    rw [scanUriLoop]
    refine .skip fun _ => ?_
    cases hbuf : st.cur.buf with
    | nil => simp
    | cons b t =>
      simp only
      split
      · rename_i hb
        unfold UriSt.push
        refine Out.Par.bind (Q := fun st' : UriSt => st'.cur.buf = t ∧ st'.canBorrow = st.canBorrow) ?_ ?_
        · refine adv_par.bind ?_
          rintro _ rfl
          simp [hbuf]
        · rintro st1 ⟨e1, e2⟩
          refine ih.mono ?_
          rintro st2 ⟨w, e3, e4⟩
          have : b ≠ b! '%' := by rintro rfl; revert hb; cases verbatim <;> decide
          refine ⟨b :: w, by rw [← e1, e3]; rfl, ?_⟩
          rw [e4, e2]
          simp [this.symm]
      · split
        · rename_i hpct
          subst hpct
          unfold UriSt.percent
          refine Out.Par.bind (Q := fun st' : UriSt => (∃ e, b! '%' :: t = b! '%' :: (e ++ st'.cur.buf)) ∧ st'.canBorrow = false) ?_ ?_
          · refine (tagUriUnescape_sat (P := True) _).par.bind ?_
            rintro os ⟨o, r, e, t', rfl, hl, htr, hs, hp⟩
            refine adv_par.bind ?_
            rintro _ rfl
            have hlen := hp.length
            rw [hbuf] at hs
            cases hp with
            | @cons x y w _ ha hb hp =>
              simp only [Out.Par.ok]
              refine ⟨⟨x :: y :: w, ?_⟩, trivial⟩
              rw [hbuf, ← hlen, hs, List.drop_left]
              rfl
          · rintro st1 ⟨⟨e, e1⟩, e2⟩
            refine ih.mono ?_
            rintro st2 ⟨w, e3, e4⟩
            refine ⟨b! '%' :: (e ++ w), by rw [e1, e3]; simp, ?_⟩
            rw [e4, e2]
            simp
        · simp only [Out.Par.ok]
          exact ⟨[], by rw [hbuf]; rfl, by simp⟩

theorem scanTagUri_cow {verbatim : Bool} {p text u : Str} {c2 : Cur} (ht : text = p ++ c.buf) (h : scanTagUri opts verbatim c = .ok (u, c2)) :
    ∃ w x, c.buf = w ++ c2.buf ∧ PercentDecode verbatim w u ∧ UriEnds verbatim c2.buf ∧ uriCow opts verbatim text c = .ok x ∧ CowIs text x u ∧
      (b! '%' ∉ w → ∃ a b, x = .Borrowed a b) ∧ (b! '%' ∈ w → x = .Owned u) := by
  obtain ⟨w, h1, h2, h3, -⟩ := scanTagUri_par _ h
  simp only at h1 h2 h3
  unfold scanTagUri at h
  obtain ⟨st, g1, h⟩ := Out.bind_eq_ok.1 h
  obtain ⟨w', g2, g3⟩ := uriLoop_borrow _ g1
  simp only [true_and] at g3
  unfold uriCow
  rw [g1, Out.ok_bind]
  cases hcb : st.canBorrow with
  | true =>
    simp only [hcb, ↓reduceIte] at h ⊢
    obtain ⟨s, g4, h⟩ := Out.bind_eq_ok.1 h
    cases h
    obtain rfl : w = w' := List.append_cancel_right (h1.symm.trans g2)
    have hp := g3.1 hcb
    refine ⟨w, _, h1, h2, h3, rfl, ?_, fun _ => ⟨_, _, rfl⟩, fun h => absurd h hp⟩
    have e := slice_par _ g4
    have hlen : c.buf.length - st.cur.buf.length = w.length := by rw [h1]; simp
    rw [hlen, h1] at e
    simp only [Nat.sub_zero, List.drop_zero, List.take_left] at e
    refine ⟨p, st.cur.buf, by rw [ht, h1, e], ?_, ?_⟩
    · rw [ht]; simp
    · rw [ht, h1, e]; simp; omega
  | false =>
    simp only [hcb, Bool.false_eq_true, ↓reduceIte] at h ⊢
    obtain ⟨s, g4, h⟩ := Out.bind_eq_ok.1 h
    cases h
    obtain rfl : w = w' := List.append_cancel_right (h1.symm.trans g2)
    have hs : u = st.scratch := by
      unfold fromUtf8Unwrap at g4
      split at g4
      · cases g4; rfl
      · cases g4
    have hp : ¬ b! '%' ∉ w := fun h => by rw [g3.2 h] at hcb; cases hcb
    exact ⟨w, _, h1, h2, h3, rfl, hs, fun h => absurd h hp, fun _ => by rw [hs]⟩

theorem assembleTag_is {text hd u : Str} {h x : Cow} (hh : CowIs text h hd) (hx : CowIs text x u) : CowsAre text (assembleTag text h x) [hd, u] := by
  cases x with
  | Borrowed a b => exact ⟨hh, hx, trivial⟩
  | Owned s => exact ⟨(cowIs_value hh).symm, hx, trivial⟩

theorem assembleTag_borrowed {text : Str} {a b : Nat} {x : Cow} (h : ∃ c d, x = .Borrowed c d) : AllBorrowed (assembleTag text (.Borrowed a b) x) := by
  obtain ⟨c, d, rfl⟩ := h
  intro y hy
  simp only [assembleTag, List.mem_cons, List.not_mem_nil, or_false] at hy
  rcases hy with rfl | rfl <;> exact ⟨_, _, rfl⟩

theorem assembleTag_owned {text s : Str} {h x : Cow} (hx : x = .Owned s) : AllOwned (assembleTag text h x) := by
  subst hx
  intro y hy
  simp only [assembleTag, List.mem_cons, List.not_mem_nil, or_false] at hy
  rcases hy with rfl | rfl <;> exact ⟨_, rfl⟩

/-- What is said of the parts of a tag: `text` is `p`, the suffix (or prefix) `w`, and then `r`. -/
def TagParts (verbatim : Bool) (text p : Str) (hd sfx : Str) (l : List Cow) : Prop :=
  ∃ w r, text = p ++ (w ++ r) ∧ PercentDecode verbatim w sfx ∧ UriEnds verbatim r ∧ CowsAre text l [hd, sfx] ∧
    (b! '%' ∉ w → AllBorrowed l) ∧ (b! '%' ∈ w → AllOwned l)

theorem tagParts_of {verbatim : Bool} {p hd text u : Str} {a b : Nat} {c2 : Cur} (ht : text = p ++ c.buf) (h : scanTagUri opts verbatim c = .ok (u, c2))
    (hh : CowIs text (.Borrowed a b) hd) :
    ∃ x, uriCow opts verbatim text c = .ok x ∧ TagParts verbatim text p hd u (assembleTag text (.Borrowed a b) x) := by
  obtain ⟨w, x, h1, h2, h3, h4, h5, h6, h7⟩ := scanTagUri_cow ht h
  exact ⟨x, h4, w, c2.buf, by rw [ht, h1], h2, h3, assembleTag_is hh h5, fun h => assembleTag_borrowed (h6 h), fun h => assembleTag_owned (h7 h)⟩

/-- **Tags** are borrowed if nothing in them is percent-encoded. -/
theorem scanNodeTag_cow {t : Str} {m : MStats} {tok : Token} {c2 : Cur} (h : scanNodeTag opts ⟨b! '!' :: t, m⟩ = .ok (tok, c2)) :
    ∃ l hd sfx, tagCows opts ⟨b! '!' :: t, m⟩ = .ok l ∧ tok = .Tag hd sfx ∧
      ((hd = [] ∧ TagParts true (b! '!' :: t) (bytes! "!<") hd sfx l) ∨ (hd ≠ [] ∧ TagParts false (b! '!' :: t) hd hd sfx l)) := by
  unfold scanNodeTag at h
  unfold tagCows
  obtain ⟨_, -, h⟩ := Out.bind_eq_ok.1 h
  simp only at h ⊢
  split at h
  · rename_i hv
    rw [if_pos hv]
    obtain ⟨u, hu⟩ := List.isPrefixOf_iff_prefix.1 hv
    simp only [List.cons_append, List.nil_append, List.cons.injEq, true_and] at hu
    subst hu
    unfold scanVerbatim at h
    obtain ⟨c1, h1, h⟩ := Out.bind_eq_ok.1 h
    obtain ⟨⟨uri, r⟩, h2, h⟩ := Out.bind_eq_ok.1 h
    obtain ⟨_, -, h⟩ := Out.bind_eq_ok.1 h
    obtain ⟨_, -, h⟩ := Out.bind_eq_ok.1 h
    obtain ⟨c3, h3, h⟩ := Out.bind_eq_ok.1 h
    cases h
    rw [h1, Out.ok_bind]
    have e1 := skip_par _ h1
    subst e1
    obtain ⟨x, g1, g2⟩ := tagParts_of (p := bytes! "!<") (hd := []) (text := b! '!' :: b! '<' :: u) (a := 2) (b := 2) rfl h2
      ⟨bytes! "!<", u, rfl, rfl, rfl⟩
    rw [g1, Out.ok_bind]
    exact ⟨_, _, _, rfl, rfl, .inl ⟨rfl, g2⟩⟩
  · rename_i hv
    rw [if_neg hv]
    obtain ⟨⟨r, m'⟩, h1, h⟩ := Out.bind_eq_ok.1 h
    rw [h1, Out.ok_bind]
    have hp := scanTagHandle_par _ h1
    cases r with
    | none =>
      simp only at h ⊢
      obtain ⟨_, -, h⟩ := Out.bind_eq_ok.1 h
      obtain ⟨c1, h2, h⟩ := Out.bind_eq_ok.1 h
      obtain ⟨⟨u, c3⟩, h3, h⟩ := Out.bind_eq_ok.1 h
      cases h
      rw [h2, Out.ok_bind]
      have e1 := adv_par _ h2
      subst e1
      obtain ⟨x, g1, g2⟩ := tagParts_of (p := bytes! "!") (hd := bytes! "!") (text := b! '!' :: t) (a := 0) (b := 1) rfl h3
        ⟨[], t, rfl, rfl, rfl⟩
      rw [g1, Out.ok_bind]
      exact ⟨_, _, _, rfl, rfl, .inr ⟨by simp, g2⟩⟩
    | some hn =>
      obtain ⟨h', n⟩ := hn
      have nm : (∃ name s, t = name ++ b! '!' :: s ∧ (∀ b ∈ name, IsAlnum b) ∧ n = name.length + 2 ∧ h'.inner = b! '!' :: (name ++ [b! '!'])) →
          ∃ s, b! '!' :: t = h'.inner ++ s ∧ n = h'.inner.length ∧ h'.inner ≠ [] := by
        rintro ⟨name, s, rfl, -, rfl, h2⟩
        rw [h2]
        exact ⟨s, by simp, by simp, by simp⟩
      have key : (∃ s, b! '!' :: t = h'.inner ++ s ∧ n = h'.inner.length ∧ h'.inner ≠ []) → (do
            let c ← Cur.skip ⟨b! '!' :: t, m'⟩ n
            let (suffix, c) ← scanTagUri opts false c
            Out.ok (Token.Tag h'.inner suffix, c)) = .ok (tok, c2) →
          ∃ l hd sfx, (do
            let c1 ← Cur.skip ⟨b! '!' :: t, m'⟩ n
            let suffix ← uriCow opts false (b! '!' :: t) c1
            .ok (assembleTag (b! '!' :: t) (.Borrowed 0 n) suffix)) = Out.ok l ∧ tok = .Tag hd sfx ∧
          ((hd = [] ∧ TagParts true (b! '!' :: t) (bytes! "!<") hd sfx l) ∨ (hd ≠ [] ∧ TagParts false (b! '!' :: t) hd hd sfx l)) := by
        rintro ⟨s, k1, k2, k3⟩ h
        obtain ⟨c1, h2, h⟩ := Out.bind_eq_ok.1 h
        obtain ⟨⟨u, c3⟩, h3, h⟩ := Out.bind_eq_ok.1 h
        cases h
        rw [h2, Out.ok_bind]
        have e1 := skip_par _ h2
        subst e1
        obtain ⟨x, g1, g2⟩ := tagParts_of (p := h'.inner) (hd := h'.inner) (text := b! '!' :: t) (a := 0) (b := n) (by simp only; rw [k1, k2, List.drop_left]) h3
          ⟨[], s, k1, rfl, by simp [k2]⟩
        rw [g1, Out.ok_bind]
        exact ⟨_, _, _, rfl, rfl, .inr ⟨k3, g2⟩⟩
      cases h' with
      | Primary q =>
        simp only at h hp ⊢
        obtain ⟨rfl, k1, rfl⟩ := hp
        obtain ⟨c1, h2, h⟩ := Out.bind_eq_ok.1 h
        cases h
        refine ⟨_, _, _, rfl, rfl, .inr ⟨by simp, [], t, rfl, .nil, white_ends k1, ?_, ?_, by simp⟩⟩
        · exact ⟨⟨[], t, rfl, rfl, rfl⟩, ⟨[], b! '!' :: t, rfl, rfl, rfl⟩, trivial⟩
        · intro _ y hy
          simp only [List.mem_cons, List.not_mem_nil, or_false] at hy
          rcases hy with rfl | rfl <;> exact ⟨_, _, rfl⟩
      | Secondary q => exact key (nm hp) h
      | Named q => exact key (nm hp) h

/-! ### Directives -/

theorem scanTagDirective_cow {p text : Str} {tok : Token} {c2 : Cur} (ht : text = p ++ c.buf) (h : scanTagDirective opts c = .ok (tok, c2)) :
    ∃ l hd pfx q, tagDirectiveCows opts text c = .ok l ∧ tok = .TagDirective hd pfx ∧ (∃ z, q = p ++ (hd ++ z)) ∧ TagParts false text q hd pfx l := by
  unfold scanTagDirective at h
  unfold tagDirectiveCows
  obtain ⟨⟨r, m'⟩, h1, h⟩ := Out.bind_eq_ok.1 h
  rw [h1, Out.ok_bind]
  cases r with
  | none => cases h
  | some hn =>
    obtain ⟨h', n⟩ := hn
    simp only at h ⊢
    obtain ⟨c1, h2, h⟩ := Out.bind_eq_ok.1 h
    obtain ⟨_, -, h⟩ := Out.bind_eq_ok.1 h
    obtain ⟨_, -, h⟩ := Out.bind_eq_ok.1 h
    obtain ⟨c3, h3, h⟩ := Out.bind_eq_ok.1 h
    obtain ⟨⟨u, c4⟩, h4, h⟩ := Out.bind_eq_ok.1 h
    obtain ⟨_, -, h⟩ := Out.bind_eq_ok.1 h
    cases h
    rw [h2, Out.ok_bind, h3, Out.ok_bind]
    have e1 := skip_par _ h2
    subst e1
    obtain ⟨k, hk⟩ := eatWs_par _ h3
    obtain ⟨z, hz, -⟩ := skips_sameLine hk
    have hsp : ∃ s, c.buf = h'.inner ++ s ∧ n = h'.inner.length := by
      obtain ⟨buf, m⟩ := c
      obtain ⟨t, rfl⟩ := scanTagHandle_excl _ h1
      have hp := scanTagHandle_par _ h1
      have nm : (∃ name s, t = name ++ b! '!' :: s ∧ (∀ b ∈ name, IsAlnum b) ∧ n = name.length + 2 ∧ h'.inner = b! '!' :: (name ++ [b! '!'])) →
          ∃ s, b! '!' :: t = h'.inner ++ s ∧ n = h'.inner.length := by
        rintro ⟨name, s, rfl, -, rfl, hi⟩
        rw [hi]
        exact ⟨s, by simp, by simp⟩
      cases h' with
      | Primary q =>
        obtain ⟨rfl, -, rfl⟩ := hp
        exact ⟨t, rfl, rfl⟩
      | Secondary q => exact nm hp
      | Named q => exact nm hp
    obtain ⟨s, k1, k2⟩ := hsp
    simp only at hz
    rw [k1, k2, List.drop_left] at hz
    have hlen : text.length - c.buf.length = p.length := by rw [ht]; simp
    obtain ⟨x, g1, g2⟩ := tagParts_of (p := p ++ (h'.inner ++ z)) (hd := h'.inner) (text := text) (a := p.length) (b := p.length + n)
      (by rw [ht, k1, hz]; simp) h4 ⟨p, s, by rw [ht, k1], rfl, by rw [k2]⟩
    rw [hlen, g1, Out.ok_bind]
    exact ⟨_, _, _, _, rfl, rfl, ⟨z, rfl⟩, g2⟩

theorem directiveToken_cow {tok : Token} {c2 : Cur} (h : Scan.directiveToken opts c = .ok (tok, c2)) :
    ∃ l, directiveCows opts c = .ok l ∧ CowsAre c.buf l (contents tok) ∧
      ∀ hd pfx, tok = .TagDirective hd pfx → ∃ q z, TagParts false c.buf q hd pfx l ∧ ∃ p, q = p ++ (hd ++ z) := by
  unfold Scan.directiveToken at h
  unfold directiveCows
  obtain ⟨_, -, h⟩ := Out.bind_eq_ok.1 h
  obtain ⟨kind, h1, h⟩ := Out.bind_eq_ok.1 h
  obtain ⟨c1, h2, h⟩ := Out.bind_eq_ok.1 h
  rw [h1, Out.ok_bind, h2, Out.ok_bind]
  have e1 := adv_par _ h2
  subst e1
  cases kind with
  | Version =>
    unfold scanDirective at h
    obtain ⟨_, -, h⟩ := Out.bind_eq_ok.1 h
    obtain ⟨⟨_, _⟩, -, h⟩ := Out.bind_eq_ok.1 h
    obtain ⟨_, -, h⟩ := Out.bind_eq_ok.1 h
    obtain ⟨_, -, h⟩ := Out.bind_eq_ok.1 h
    obtain ⟨_, -, h⟩ := Out.bind_eq_ok.1 h
    obtain ⟨⟨_, _⟩, -, h⟩ := Out.bind_eq_ok.1 h
    cases h
    exact ⟨_, rfl, trivial, fun _ _ h => by cases h⟩
  | Tag =>
    unfold scanDirective at h
    obtain ⟨c3, h3, h⟩ := Out.bind_eq_ok.1 h
    simp only
    rw [h3, Out.ok_bind]
    obtain ⟨k, hk⟩ := eatWs_par _ h3
    obtain ⟨z, hz, -⟩ := skips_sameLine hk
    simp only at hz
    obtain ⟨l, hd, pfx, q, g1, rfl, ⟨z', g3⟩, g4⟩ := scanTagDirective_cow (p := c.buf.take (1 + DirectiveKind.Tag.len) ++ z) (text := c.buf)
      (by rw [List.append_assoc, ← hz, List.take_append_drop]) h
    refine ⟨l, g1, ?_, ?_⟩
    · obtain ⟨_, _, -, -, -, k, -⟩ := g4
      exact k
    · intro _ _ h
      cases h
      exact ⟨q, z', g4, _, g3⟩

end Yary
