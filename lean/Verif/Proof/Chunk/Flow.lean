import Verif.Proof.Chunk.Sub

/-! # Quoted scalars at the beginning of a text -/

namespace Yary.Chunk

open Out (Sat)

variable {o o' : SFlags} {t : Str} (hx : o.extendable = true) (hx' : o'.extendable = false) (ht : HeadOk t)

/-- The state on the text, for one on the beginning. -/
def FlowSt.grow (t : Str) (st : FlowSt) : FlowSt := { st with cur := ⟨st.cur.buf ++ t, st.cur.stats⟩ }

/-- The same progress in a quoted scalar. -/
structure FlowGrown (t : Str) (a b : FlowSt) : Prop where
  eq : b = FlowSt.grow t a
  valid : validUtf8 a.cur.buf = true

include ht

theorem flowNoBorrow_later {base : Str} {st : FlowSt} (hv : validUtf8 st.cur.buf = true) :
    Later No (fun a b => FlowGrown t a b ∧ a.cur = st.cur) (st.noBorrow base) ((FlowSt.grow t st).noBorrow (base ++ t)) := by
  unfold FlowSt.noBorrow
  refine Later.iteB rfl (fun _ => ?_) fun _ => .ok ⟨⟨rfl, hv⟩, rfl⟩
  have hl : (base ++ t).length - (FlowSt.grow t st).cur.buf.length = base.length - st.cur.buf.length := by
    simp only [FlowSt.grow, List.length_append]; omega
  rw [hl, slice_grow ht (by omega)]
  refine Later.same.bind0 ?_
  rintro s _ rfl
  exact .ok ⟨⟨rfl, hv⟩, rfl⟩

theorem flowPush_later {st : FlowSt} (hv : validUtf8 st.cur.buf = true) (hn : 1 ≤ st.cur.buf.length) :
    Later No (FlowGrown t) st.push (FlowSt.grow t st).push := by
  unfold FlowSt.push
  refine (adv_later ht hv hn).bind0 ?_
  rintro c _ ⟨⟨rfl, hv1⟩, -⟩
  refine .ok ⟨?_, hv1⟩
  simp only [FlowSt.grow]
  rw [take_grow hn]
  rfl

include hx hx'

theorem flowWord_later {base : Str} {single : Bool} {fuel fuel' : Nat} (hf : fuel ≤ fuel') {st : FlowSt}
    (hv : validUtf8 st.cur.buf = true) :
    Later (fun a => a.1 = false ∧ a.2.cur.buf = [])
      (fun a b => b.1 = a.1 ∧ FlowGrown t a.2 b.2)
      (flowWord o base single fuel st) (flowWord o' (base ++ t) single fuel' (FlowSt.grow t st)) := by
  induction fuel generalizing fuel' st with
  | zero => trivial
  | succ fuel ih =>
    obtain ⟨fuel', rfl⟩ : ∃ k, fuel' = k + 1 := ⟨fuel' - 1, by omega⟩
    have hf' : fuel ≤ fuel' := by omega
    rw [flowWord, flowWord]
    by_cases hn : st.cur.buf = []
    · rw [if_pos (by rw [hn]; rfl)]
      exact .stuck ⟨rfl, hn⟩
    · have hgb : (FlowSt.grow t st).cur.buf = st.cur.buf ++ t := rfl
      rw [hgb]
      refine Later.iteB (isWhiteSpaceZ_grow hv hn) (fun _ => .ok ⟨rfl, rfl, hv⟩) fun _ => ?_
      refine cache_later hx hx' fun hh => ?_
      have h2 := hh.length
      refine Later.iteB (by rw [isPrefixOf_grow (p := [0x27, 0x27]) h2]) (fun _ => ?_) fun _ => ?_
      · refine (flowNoBorrow_later ht hv).bind0 ?_
        rintro st1 _ ⟨⟨rfl, hv1⟩, hc1⟩
        refine (adv_later ht (c := st1.cur) hv1 (by rw [hc1]; omega)).bind0 ?_
        rintro c _ ⟨⟨rfl, hv2⟩, -⟩
        exact ih (st := { st1 with cur := c, scratch := st1.scratch ++ [0x27] }) hf' hv2
      refine Later.iteB (by rw [startsWith_grow hn, startsWith_grow hn]) (fun _ => .ok ⟨rfl, rfl, hv⟩) fun _ => ?_
      have hesc : (!single && startsWith (st.cur.buf ++ t) 0x5C && isBreak ((st.cur.buf ++ t).drop 1)) =
          (!single && startsWith st.cur.buf 0x5C && isBreak (st.cur.buf.drop 1)) := by
        rw [Bool.and_assoc, second_grow (by decide) (fun _ => isBreak_grow) hv hh, ← Bool.and_assoc]
      refine Later.iteB hesc (fun _ => ?_) fun _ => ?_
      · refine (flowNoBorrow_later ht hv).bind0 ?_
        rintro st1 _ ⟨⟨rfl, hv1⟩, hc1⟩
        refine (adv_later ht (c := st1.cur) hv1 (by rw [hc1]; omega)).bind0 ?_
        rintro c _ ⟨⟨rfl, hv2⟩, -⟩
        exact ih (st := { st1 with cur := c, escapedBreak := some .Start }) hf' hv2
      refine Later.iteB (by rw [startsWith_grow hn]) (fun _ => ?_) fun _ => ?_
      · refine (flowNoBorrow_later ht hv).bind0 ?_
        rintro st1 _ ⟨⟨rfl, hv1⟩, hc1⟩
        refine (flowUnescape_later hx hx').bind0 ?_
        rintro ⟨w, n⟩ _ ⟨rfl, hn⟩
        refine (adv_later ht (c := st1.cur) hv1 hn).bind0 ?_
        rintro c _ ⟨⟨rfl, hv2⟩, -⟩
        exact ih (st := { st1 with cur := c, scratch := st1.scratch ++ w }) hf' hv2
      · refine (flowPush_later ht hv (by omega)).bind0 ?_
        rintro st1 _ ⟨rfl, hv1⟩
        exact ih hf' hv1

omit hx' ht in
theorem flowSpace_stuck {base : Str} {fuel : Nat} {st : FlowSt} (h : st.cur.buf = []) :
    flowSpace o base fuel st = .err .Extend ∨ flowSpace o base fuel st = .diverge := by
  cases fuel with
  | zero => exact .inr rfl
  | succ fuel => rw [flowSpace, h, cache_nil hx]; exact .inl rfl

theorem flowSpace_later {base : Str} {fuel fuel' : Nat} (hf : fuel ≤ fuel') {st : FlowSt}
    (hv : validUtf8 st.cur.buf = true) :
    Later No (FlowGrown t) (flowSpace o base fuel st) (flowSpace o' (base ++ t) fuel' (FlowSt.grow t st)) := by
  induction fuel generalizing fuel' st with
  | zero => trivial
  | succ fuel ih =>
    obtain ⟨fuel', rfl⟩ : ∃ k, fuel' = k + 1 := ⟨fuel' - 1, by omega⟩
    have hf' : fuel ≤ fuel' := by omega
    rw [flowSpace, flowSpace]
    refine cache_later hx hx' fun hh => ?_
    have hgb : (FlowSt.grow t st).cur.buf = st.cur.buf ++ t := rfl
    rw [hgb]
    refine Later.iteB (isBlank_grow hh.ne) (fun _ => ?_) fun _ => ?_
    · refine (flowPush_later ht hv hh.length).bind0 ?_
      rintro st1 _ ⟨rfl, hv1⟩
      exact ih (st := { st1 with whitespace := st1.whitespace + 1 }) hf' hv1
    · refine Later.iteB (isBreak_grow hv hh.ne) (fun _ => ?_) fun _ => .ok ⟨rfl, hv⟩
      refine (flowNoBorrow_later ht hv).bind0 ?_
      rintro st1 _ ⟨⟨rfl, hv1⟩, hc1⟩
      refine (line_later ht (c := st1.cur) hv1 (by rw [hc1]; exact hh.ne)).bind ?_ ?_
      · intro a ha
        exact flowSpace_stuck hx ha
      · rintro c _ ⟨⟨rfl, hv2⟩, -⟩
        have he : (FlowSt.grow t st1).escapedBreak = st1.escapedBreak := rfl
        simp only [he]
        by_cases h : st1.escapedBreak = some .Start
        · simp only [if_pos h]
          exact ih (st := { st1 with cur := c, whitespace := 0, escapedBreak := some .Started, lines := st1.lines + 1 })
            hf' hv2
        · simp only [if_neg h]
          exact ih (st := { st1 with cur := c, lines := st1.lines + 1 }) hf' hv2

omit hx hx' in
theorem flowJoin_later {base : Str} {st : FlowSt} (hv : validUtf8 st.cur.buf = true) :
    Later No (FlowGrown t) (flowJoin base st) (flowJoin (base ++ t) (FlowSt.grow t st)) := by
  unfold flowJoin
  have hl : (FlowSt.grow t st).lines = st.lines := rfl
  rw [hl]
  match st.lines with
  | 0 => exact .ok ⟨rfl, hv⟩
  | 1 =>
    simp only
    refine (flowNoBorrow_later ht hv).bind0 ?_
    rintro st1 _ ⟨⟨rfl, hv1⟩, hc1⟩
    refine Later.same.bind0 ?_
    rintro s _ rfl
    exact .ok ⟨rfl, hv1⟩
  | n + 2 =>
    simp only
    refine (flowNoBorrow_later ht hv).bind0 ?_
    rintro st1 _ ⟨⟨rfl, hv1⟩, hc1⟩
    refine Later.same.bind0 ?_
    rintro s _ rfl
    exact .ok ⟨rfl, hv1⟩

theorem flowLoop_later {base : Str} {single : Bool} {fuel fuel' : Nat} (hf : fuel ≤ fuel') {st : FlowSt}
    (hv : validUtf8 st.cur.buf = true) :
    Later No (FlowGrown t) (flowLoop o base single fuel st) (flowLoop o' (base ++ t) single fuel' (FlowSt.grow t st)) := by
  induction fuel generalizing fuel' st with
  | zero => trivial
  | succ fuel ih =>
    obtain ⟨fuel', rfl⟩ : ∃ k, fuel' = k + 1 := ⟨fuel' - 1, by omega⟩
    have hf' : fuel ≤ fuel' := by omega
    have hb : base.length + 1 ≤ (base ++ t).length + 1 := by simp only [List.length_append]; omega
    rw [flowLoop, flowLoop]
    refine cache_later hx hx' fun hh => ?_
    refine Later.iteB (isDocumentIndicator_grow hv hh _) (fun _ => .err) fun _ => ?_
    refine Later.iteB (isEmpty_grow hh.ne) (fun _ => .err) fun _ => ?_
    refine cache_later hx hx' fun hh1 => ?_
    refine (flowWord_later hx hx' ht hb (st := { st with escapedBreak := none }) hv).bind ?_ ?_
    · rintro ⟨d, st1⟩ ⟨h1, h2⟩
      simp only at h1 h2
      subst h1
      simp only [Bool.false_eq_true, ↓reduceIte]
      rcases flowSpace_stuck hx (base := base) (fuel := base.length + 1)
        (st := { st1 with whitespace := 0, lines := 0 }) h2 with h | h
      · rw [h]; exact .inl rfl
      · rw [h]; exact .inr rfl
    · rintro ⟨d, st1⟩ ⟨d', _⟩ ⟨hd, rfl, hv1⟩
      simp only at hd hv1
      subst hd
      simp only
      refine Later.iteB rfl (fun _ => .ok ⟨rfl, hv1⟩) fun _ => ?_
      refine (flowSpace_later hx hx' ht hb (st := { st1 with whitespace := 0, lines := 0 }) hv1).bind0 ?_
      rintro st2 _ ⟨rfl, hv2⟩
      refine (flowJoin_later ht hv2).bind0 ?_
      rintro st3 _ ⟨rfl, hv3⟩
      exact ih hf' hv3

omit hx hx' in
theorem flowSlice_grow {base : Str} {st : FlowSt} :
    flowSlice (base ++ t) (FlowSt.grow t st) = flowSlice base st := by
  unfold flowSlice
  have hl : (base ++ t).length - (FlowSt.grow t st).cur.buf.length = base.length - st.cur.buf.length := by
    simp only [FlowSt.grow, List.length_append]; omega
  rw [hl, slice_grow ht (by omega)]
  rfl

theorem scanFlowEager_later {single : Bool} {c : Cur} (hv : validUtf8 c.buf = true) :
    Later No (Read t) (scanFlowEager o single c) (scanFlowEager o' single ⟨c.buf ++ t, c.stats⟩) := by
  unfold scanFlowEager
  refine cache_later hx hx' fun hh => ?_
  refine (adv_later ht hv hh.length).bind0 ?_
  rintro c1 _ ⟨⟨rfl, hv1⟩, -⟩
  refine (flowLoop_later hx hx' ht (by simp only [List.length_append]; omega) (st := { cur := c1 }) hv1).bind0 ?_
  rintro st _ ⟨rfl, hv2⟩
  rw [flowSlice_grow ht]
  refine Later.same.bind0 ?_
  rintro s _ rfl
  refine cache_later hx hx' fun hh => ?_
  refine (adv_later ht hv2 hh.length).bind0 ?_
  rintro c2 _ ⟨⟨rfl, hv3⟩, -⟩
  exact .ok ⟨rfl, hv3⟩

end Yary.Chunk
