import Verif.Proof.Chunk.Flow

/-! # Plain scalars at the beginning of a text -/

namespace Yary.Chunk

open Out (Sat)

variable {o o' : SFlags} {t : Str} (hx : o.extendable = true) (hx' : o'.extendable = false) (ht : HeadOk t)

/-- The state on the text, for one on the beginning. -/
def PlainSt.grow (t : Str) (st : PlainSt) : PlainSt := { st with cur := ⟨st.cur.buf ++ t, st.cur.stats⟩ }

/-- The same progress in a plain scalar; `n` is how much will have been read at the end. -/
structure PlainGrown (t : Str) (n : Nat) (a b : PlainSt) : Prop where
  eq : b = PlainSt.grow t a
  valid : validUtf8 a.cur.buf = true
  cur : a.cur.stats.read + a.cur.buf.length = n
  scalar : a.scalarStats.read ≤ n

include ht

theorem plainNoBorrow_later {base : Str} {n : Nat} {st : PlainSt} (hg : PlainGrown t n st (PlainSt.grow t st)) :
    Later No (fun a b => PlainGrown t n a b ∧ a.cur = st.cur) (st.noBorrow base)
      ((PlainSt.grow t st).noBorrow (base ++ t)) := by
  unfold PlainSt.noBorrow
  refine Later.iteB rfl (fun _ => ?_) fun _ => .ok ⟨hg, rfl⟩
  have hl : (base ++ t).length - (PlainSt.grow t st).cur.buf.length = base.length - st.cur.buf.length := by
    simp only [PlainSt.grow, List.length_append]; omega
  rw [hl, slice_grow ht (by omega)]
  refine Later.same.bind0 ?_
  rintro s _ rfl
  exact .ok ⟨⟨rfl, hg.valid, hg.cur, hg.scalar⟩, rfl⟩

theorem plainPush_later {n : Nat} {st : PlainSt} (hg : PlainGrown t n st (PlainSt.grow t st))
    (hn : 1 ≤ st.cur.buf.length) :
    Later No (PlainGrown t n) st.push (PlainSt.grow t st).push := by
  unfold PlainSt.push
  refine (adv_later ht hg.valid hn).bind0 ?_
  rintro c _ ⟨⟨rfl, hv1⟩, rfl⟩
  refine .ok ⟨?_, hv1, ?_, hg.scalar⟩
  · simp only [PlainSt.grow]
    rw [take_grow hn]
    rfl
  · have := hg.cur
    simp only [MStats.update, List.length_drop]
    omega

include hx hx'

theorem plainWord_later {block : Bool} {n fuel fuel' : Nat} (hf : fuel ≤ fuel') {st : PlainSt}
    (hg : PlainGrown t n st (PlainSt.grow t st)) :
    Later (fun a => a.cur.buf = []) (PlainGrown t n)
      (plainWord o block fuel st) (plainWord o' block fuel' (PlainSt.grow t st)) := by
  induction fuel generalizing fuel' st with
  | zero => trivial
  | succ fuel ih =>
    obtain ⟨fuel', rfl⟩ : ∃ k, fuel' = k + 1 := ⟨fuel' - 1, by omega⟩
    have hf' : fuel ≤ fuel' := by omega
    rw [plainWord, plainWord]
    by_cases hn : st.cur.buf = []
    · rw [if_pos (by rw [hn]; rfl)]
      exact .stuck hn
    · have hgb : (PlainSt.grow t st).cur.buf = st.cur.buf ++ t := rfl
      rw [hgb]
      refine Later.iteB (isWhiteSpaceZ_grow hg.valid hn) (fun _ => .ok hg) fun _ => ?_
      refine cache_later hx hx' fun hh => ?_
      refine Later.iteB (plainEnd_grow hg.valid hh block) (fun _ => .ok hg) fun _ => ?_
      refine (plainPush_later ht hg (by have := hh.length; omega)).bind0 ?_
      rintro st1 _ ⟨rfl, h1, h2, h3⟩
      exact ih hf' ⟨rfl, h1, h2, h3⟩

omit hx' ht in
theorem plainSpace_stuck {base : Str} {fuel : Nat} {st : PlainSt} (h : st.cur.buf = []) :
    plainSpace o base fuel st = .err .Extend ∨ plainSpace o base fuel st = .diverge := by
  cases fuel with
  | zero => exact .inr rfl
  | succ fuel => rw [plainSpace, h, cache_nil hx]; exact .inl rfl

theorem plainSpace_later {base : Str} {n fuel fuel' : Nat} (hf : fuel ≤ fuel') {st : PlainSt}
    (hg : PlainGrown t n st (PlainSt.grow t st)) :
    Later No (PlainGrown t n) (plainSpace o base fuel st) (plainSpace o' (base ++ t) fuel' (PlainSt.grow t st)) := by
  induction fuel generalizing fuel' st with
  | zero => trivial
  | succ fuel ih =>
    obtain ⟨fuel', rfl⟩ : ∃ k, fuel' = k + 1 := ⟨fuel' - 1, by omega⟩
    have hf' : fuel ≤ fuel' := by omega
    rw [plainSpace, plainSpace]
    refine cache_later hx hx' fun hh => ?_
    have hgb : (PlainSt.grow t st).cur.buf = st.cur.buf ++ t := rfl
    rw [hgb]
    refine Later.iteB (isBlank_grow hh.ne) (fun _ => ?_) fun _ => ?_
    · refine (plainPush_later ht hg hh.length).bind0 ?_
      rintro st1 _ ⟨rfl, h1, h2, h3⟩
      exact ih (st := { st1 with whitespace := st1.whitespace + 1 }) hf' ⟨rfl, h1, h2, h3⟩
    · refine Later.iteB (isBreak_grow hg.valid hh.ne) (fun _ => ?_) fun _ => .ok hg
      refine (plainNoBorrow_later ht hg).bind0 ?_
      rintro st1 _ ⟨⟨rfl, h1, h2, h3⟩, hc1⟩
      refine (line_later ht (c := st1.cur) h1 (by rw [hc1]; exact hh.ne)).bind ?_ ?_
      · intro a ha
        exact plainSpace_stuck hx ha
      · rintro c _ ⟨⟨rfl, hv2⟩, rfl⟩
        refine ih (st := { st1 with cur := ⟨_, _⟩, lines := st1.lines + 1 }) hf' ⟨rfl, hv2, ?_, h3⟩
        have := breakLen_le st1.cur.buf
        simp only [MStats.update, List.length_drop]
        omega

omit hx hx' ht in
theorem plainJoin_later {n : Nat} {st : PlainSt} (hg : PlainGrown t n st (PlainSt.grow t st)) :
    Later No (PlainGrown t n) (plainJoin st) (plainJoin (PlainSt.grow t st)) := by
  unfold plainJoin
  have hl : (PlainSt.grow t st).lines = st.lines := rfl
  rw [hl]
  match st.lines with
  | 0 => exact .ok hg
  | 1 =>
    simp only
    refine Later.same.bind0 ?_
    rintro s _ rfl
    exact .ok ⟨rfl, hg.valid, hg.cur, hg.scalar⟩
  | k + 2 =>
    simp only
    refine Later.same.bind0 ?_
    rintro s _ rfl
    exact .ok ⟨rfl, hg.valid, hg.cur, hg.scalar⟩

theorem plainLoop_later {base : Str} {indent : Nat} {block : Bool} {n fuel fuel' : Nat} (hf : fuel ≤ fuel')
    {st : PlainSt} (hg : PlainGrown t n st (PlainSt.grow t st)) :
    Later No (PlainGrown t n) (plainLoop o base indent block fuel st)
      (plainLoop o' (base ++ t) indent block fuel' (PlainSt.grow t st)) := by
  induction fuel generalizing fuel' st with
  | zero => trivial
  | succ fuel ih =>
    obtain ⟨fuel', rfl⟩ : ∃ k, fuel' = k + 1 := ⟨fuel' - 1, by omega⟩
    have hf' : fuel ≤ fuel' := by omega
    have hb : base.length + 1 ≤ (base ++ t).length + 1 := by simp only [List.length_append]; omega
    have hgb : (PlainSt.grow t st).cur.buf = st.cur.buf ++ t := rfl
    rw [plainLoop, plainLoop, hgb]
    refine cache_later hx hx' fun hh => ?_
    refine Later.iteB (isEmpty_grow hh.ne) (fun _ => .ok hg) fun _ => ?_
    refine Later.iteB rfl (fun _ => .ok hg) fun _ => ?_
    refine Later.iteB (by rw [isDocumentIndicator_grow hg.valid hh, startsWith_grow hh.ne]; rfl) (fun _ => .ok hg)
      fun _ => ?_
    refine Later.iteB (plainEnd_grow hg.valid (Has.mono (by decide) hh) block) (fun _ => .ok hg) fun _ => ?_
    refine (plainWord_later hx hx' ht hb (st := { st with whitespace := 0, lines := 0 })
      ⟨rfl, hg.valid, hg.cur, hg.scalar⟩).bind ?_ ?_
    · intro st1 h1
      rcases plainSpace_stuck hx (base := base) (fuel := base.length + 1)
        (st := { st1 with scalarStats := st1.cur.stats }) h1 with h | h
      · rw [h]; exact .inl rfl
      · rw [h]; exact .inr rfl
    · rintro st1 _ ⟨rfl, h1, h2, h3⟩
      refine (plainSpace_later hx hx' ht hb (st := { st1 with scalarStats := st1.cur.stats })
        ⟨rfl, h1, h2, by simp only; omega⟩).bind0 ?_
      rintro st2 _ ⟨rfl, h4, h5, h6⟩
      refine (plainJoin_later (st := { st2 with outdent := block && decide (st2.cur.stats.column < indent) })
        ⟨rfl, h4, h5, h6⟩).bind0 ?_
      rintro st3 _ ⟨rfl, h7, h8, h9⟩
      exact ih hf' ⟨rfl, h7, h8, h9⟩

omit hx hx' ht in
theorem plainBadStart_grow {s : Str} (hv : validUtf8 s = true) (h : Has 2 s) (block : Bool) :
    plainBadStart block (s ++ t) = plainBadStart block s := by
  unfold plainBadStart
  have h1 := second_grow (t := t) (b := b! ':') (by decide) (fun _ _ => flowIndicator_grow) hv h
  have h2 := second_grow (t := t) (b := b! '?') (by decide) (fun _ _ => flowIndicator_grow) hv h
  have h3 := second_grow (t := t) (b := b! '-') (by decide) (fun _ _ => flowIndicator_grow) hv h
  rw [Bool.and_assoc, Bool.and_assoc]
  congr 1
  rw [Bool.and_or_distrib_right, Bool.and_or_distrib_right, h1, h2, h3, Bool.and_or_distrib_right,
    Bool.and_or_distrib_right]

omit hx hx' in
theorem plainSlice_grow {base : Str} {st : PlainSt} {n : Nat} (h : n ≤ base.length) :
    plainSlice (base ++ t) (PlainSt.grow t st) n = plainSlice base st n := by
  unfold plainSlice
  rw [slice_grow ht h]
  rfl

theorem scanPlainEager_later {indent : Nat} {block : Bool} {c : Cur} (hv : validUtf8 c.buf = true) :
    Later No (Read t) (scanPlainEager o indent block c) (scanPlainEager o' indent block ⟨c.buf ++ t, c.stats⟩) := by
  rw [scanPlainEager_eq, scanPlainEager_eq]
  refine cache_later hx hx' fun hh => ?_
  refine Later.iteB (plainBadStart_grow hv hh block) (fun _ => .err) fun _ => ?_
  refine (plainLoop_later hx hx' ht (n := c.stats.read + c.buf.length)
    (by simp only [List.length_append]; omega) (st := { cur := c, scalarStats := c.stats })
    ⟨rfl, hv, rfl, by simp⟩).bind0 ?_
  rintro st _ ⟨rfl, h1, h2, h3⟩
  have hs : (PlainSt.grow t st).scalarStats = st.scalarStats := rfl
  simp only [hs]
  have hl : st.scalarStats.read - c.stats.read ≤ c.buf.length := by omega
  rw [plainSlice_grow ht hl]
  refine Later.same.bind0 ?_
  rintro s _ rfl
  refine (skip_later ht (c := ⟨c.buf, st.scalarStats⟩) hv hl).bind0 ?_
  rintro c2 _ ⟨⟨rfl, hv3⟩, -⟩
  exact .ok ⟨rfl, hv3⟩

end Yary.Chunk
