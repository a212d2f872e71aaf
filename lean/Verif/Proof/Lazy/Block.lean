import Verif.Proof.Lazy.PlainRest

/-! # Block scalars, scanned alone -/

namespace Yary.Deferred

open Chunk Spec

variable {o o' : SFlags} {t : Str} (hx : o.extendable = false) (hx' : o'.extendable = false) (ht : HeadOk t)

/-- The cursor on the text, for one on the text of the scalar. -/
def grow (t : Str) (c : Cur) : Cur := ⟨c.buf ++ t, c.stats⟩

theorem grow_nil (c : Cur) : grow [] c = c := by unfold grow; rw [List.append_nil]

/-- Something of the text of the scalar is left, if anything follows it. -/
def Left (t s : Str) : Prop := t = [] ∨ t.length < s.length

theorem Left.suf {a b : Str} (h : Left t b) (hs : Suf a b) : Left t a := by
  have := hs.length
  rcases h with h | h
  · exact .inl h
  · exact .inr (by omega)

theorem Left.ne {s : Str} (h : Left t (s ++ t)) : s ≠ [] ∨ t = [] := by
  rcases h with h | h
  · exact .inr h
  · left; rintro rfl; simp at h

/-! ## How far they read -/

section
include hx

theorem skipBlanksLoop_moves {fuel : Nat} {c x : Cur} (h : skipBlanksLoop o fuel c = .ok x) : Moves c x ∧ isBlank x.buf = false := by
  induction fuel generalizing c with
  | zero => cases h
  | succ fuel ih =>
    rw [skipBlanksLoop] at h
    split at h
    · rw [cache_whole o hx, Out.ok_bind] at h
      obtain ⟨c1, h1, h⟩ := Out.bind_eq_ok.1 h
      exact ⟨(Moves.adv h1).trans (ih h).1, (ih h).2⟩
    · rename_i hb
      injection h with h; subst h; exact ⟨.refl _, by simpa using hb⟩

theorem toBreak_moves {fuel : Nat} {c x : Cur} (h : toBreak o fuel c = .ok x) : Moves c x ∧ isBreakZ x.buf = true := by
  induction fuel generalizing c with
  | zero => cases h
  | succ fuel ih =>
    rw [toBreak] at h
    split at h
    · rename_i hb
      injection h with h; subst h; exact ⟨.refl _, hb⟩
    · rw [cache_whole o hx, Out.ok_bind] at h
      obtain ⟨c1, h1, h⟩ := Out.bind_eq_ok.1 h
      exact ⟨(Moves.adv h1).trans (ih h).1, (ih h).2⟩

theorem skipBlanks_moves {c x : Cur} (h : skipBlanks o c = .ok x) : Moves c x ∧ isBlank x.buf = false := by
  unfold skipBlanks at h
  rw [cache_whole o hx, Out.ok_bind] at h
  obtain ⟨c1, h1, h⟩ := Out.bind_eq_ok.1 h
  obtain ⟨m1, b1⟩ := skipBlanksLoop_moves hx h1
  split at h
  · obtain ⟨m2, b2⟩ := toBreak_moves hx h
    refine ⟨m1.trans m2, ?_⟩
    cases hb : isBlank x.buf with
    | false => rfl
    | true =>
      obtain ⟨b, r, hbs, hb'⟩ := isBlank_iff.1 hb
      rw [hbs] at b2
      rcases hb' with rfl | rfl <;> simp [isBreakZ, isBreak] at b2
  · injection h with h; subst h; exact ⟨m1, b1⟩

theorem scanIndentLoop_moves {indent fuel lines k : Nat} {c x : Cur} (h : scanIndentLoop o indent fuel c lines = .ok (x, k)) : Moves c x := by
  induction fuel generalizing c lines with
  | zero => cases h
  | succ fuel ih =>
    rw [scanIndentLoop] at h
    split at h
    · split at h
      · obtain ⟨c1, h1, h⟩ := Out.bind_eq_ok.1 h
        rw [cache_whole o hx, Out.ok_bind] at h
        exact (Moves.adv h1).trans (ih h)
      split at h
      · cases h
      · obtain ⟨c1, h1, h⟩ := Out.bind_eq_ok.1 h
        rw [cache_whole o hx, Out.ok_bind] at h
        exact (Moves.line h1).trans (ih h)
    · injection h with h; injection h with h; subst h; exact .refl _

theorem scanIndent_moves {indent lines k : Nat} {c x : Cur} (h : scanIndent o indent c lines = .ok (x, k)) : Moves c x := by
  unfold scanIndent at h
  split at h
  · injection h with h; injection h with h; subst h; exact .refl _
  · rw [cache_whole o hx, Out.ok_bind] at h
    exact scanIndentLoop_moves hx h

theorem detectBlanks_moves {fuel : Nat} {st x : DetectSt} (h : detectBlanks o fuel st = .ok x) : Moves st.cur x.cur := by
  induction fuel generalizing st with
  | zero => cases h
  | succ fuel ih =>
    rw [detectBlanks] at h
    split at h
    · rw [cache_whole o hx, Out.ok_bind] at h
      split at h
      · cases h
      · obtain ⟨c1, h1, h⟩ := Out.bind_eq_ok.1 h
        exact (Moves.adv h1).trans (ih h)
    · injection h with h; subst h; exact .refl _

theorem detectLoop_moves {fuel : Nat} {st x : DetectSt} (h : detectLoop o fuel st = .ok x) : Moves st.cur x.cur := by
  induction fuel generalizing st with
  | zero => cases h
  | succ fuel ih =>
    rw [detectLoop, cache_whole o hx, Out.ok_bind] at h
    obtain ⟨st1, h1, h⟩ := Out.bind_eq_ok.1 h
    have m1 := detectBlanks_moves hx h1
    simp only [cache_whole o hx, Out.ok_bind] at h
    split at h
    · obtain ⟨c1, h2, h⟩ := Out.bind_eq_ok.1 h
      exact (m1.trans (Moves.line h2)).trans (ih h)
    · injection h with h; subst h; exact m1

theorem eatBreak_moves {lines k : Nat} {c x : Cur} (h : eatBreak o c lines = .ok (x, k)) :
    Moves c x ∧ (isBreak c.buf = true → x.buf.length < c.buf.length ∧ k = lines + 1) ∧ (isBreak c.buf = false → x = c ∧ k = lines) := by
  unfold eatBreak at h
  rw [cache_whole o hx, Out.ok_bind] at h
  by_cases hb : isBreak c.buf = true
  · rw [if_pos hb] at h
    obtain ⟨c1, h1, h⟩ := Out.bind_eq_ok.1 h
    injection h with h; injection h with h h'; subst h; subst h'
    refine ⟨.line h1, fun _ => ⟨?_, rfl⟩, (fun h => by rw [hb] at h; cases h)⟩
    have := breakLen_pos.2 hb
    have := breakLen_le c.buf
    rw [(line_ok h1).1]; simp only [List.length_drop]; omega
  · rw [if_neg hb] at h
    injection h with h; injection h with h h'; subst h; subst h'
    exact ⟨.refl _, (fun h => absurd h hb), fun _ => ⟨rfl, rfl⟩⟩

end

/-! ## The same on the text of the scalar -/

section
include ht

theorem adv_back {c x : Cur} {n : Nat} (hn : n ≤ c.buf.length) (h : (grow t c).adv n = .ok x) :
    ∃ c', x = grow t c' ∧ c.adv n = .ok c' := by
  obtain ⟨rfl, h'⟩ := adv_grow ht hn h
  exact ⟨_, rfl, h'⟩

theorem line_back {c x : Cur} (hv : validUtf8 c.buf = true) (hb : isBreak (c.buf ++ t) = true)
    (h : (grow t c).line = .ok x) (hl : t.length ≤ x.buf.length) : ∃ c', x = grow t c' ∧ c.line = .ok c' := by
  have hne : c.buf ≠ [] := by
    intro h0
    obtain ⟨rfl, -⟩ := line_ok h
    have := breakLen_pos.2 hb
    have := breakLen_le (c.buf ++ t)
    unfold grow at hl
    rw [h0] at *
    simp at *
    omega
  rw [isBreak_grow hv hne] at hb
  obtain ⟨rfl, h'⟩ := line_grow_le ht hv hne hb h hl
  exact ⟨_, rfl, h'⟩

include hx hx'

theorem skipBlanksLoop_back {fuel fuel' : Nat} {c x : Cur} (hv : validUtf8 c.buf = true) (hf : c.buf.length < fuel')
    (h : skipBlanksLoop o fuel (grow t c) = .ok x) (hl : Left t x.buf) :
    ∃ c', x = grow t c' ∧ skipBlanksLoop o' fuel' c = .ok c' := by
  induction fuel generalizing c fuel' with
  | zero => cases h
  | succ fuel ih =>
    obtain ⟨fuel', rfl⟩ : ∃ k, fuel' = k + 1 := ⟨fuel' - 1, by omega⟩
    have hm := (skipBlanksLoop_moves hx h).1.suf
    have hne := (hl.suf hm).ne
    rw [skipBlanksLoop] at h ⊢
    have hg : (grow t c).buf = c.buf ++ t := rfl
    have hbl : isBlank (c.buf ++ t) = isBlank c.buf := by
      rcases hne with hne | rfl
      · exact isBlank_grow hne
      · rw [List.append_nil]
    rw [hg, hbl, cache_whole o hx, Out.ok_bind] at h
    rw [cache_whole o' hx', Out.ok_bind]
    by_cases hb : isBlank c.buf = true
    · rw [if_pos hb] at h ⊢
      obtain ⟨c1, h1, h⟩ := Out.bind_eq_ok.1 h
      have h1le : 1 ≤ c.buf.length := by
        obtain ⟨b, r, hbs, -⟩ := isBlank_iff.1 hb
        rw [hbs]; simp
      obtain ⟨c1, rfl, h1'⟩ := adv_back ht h1le h1
      rw [h1', Out.ok_bind]
      refine ih (adv_valid hv h1') ?_ h
      rw [(adv_ok h1').1]; simp only [List.length_drop]; omega
    · rw [if_neg hb] at h ⊢
      injection h with h; subst h
      exact ⟨c, rfl, rfl⟩

theorem toBreak_back {fuel fuel' : Nat} {c x : Cur} (hv : validUtf8 c.buf = true) (hf : c.buf.length < fuel')
    (h : toBreak o fuel (grow t c) = .ok x) (hl : Left t x.buf) :
    ∃ c', x = grow t c' ∧ toBreak o' fuel' c = .ok c' := by
  induction fuel generalizing c fuel' with
  | zero => cases h
  | succ fuel ih =>
    obtain ⟨fuel', rfl⟩ : ∃ k, fuel' = k + 1 := ⟨fuel' - 1, by omega⟩
    have hm := (toBreak_moves hx h).1.suf
    have hne := (hl.suf hm).ne
    rw [toBreak] at h ⊢
    have hg : (grow t c).buf = c.buf ++ t := rfl
    have hbl : isBreakZ (c.buf ++ t) = isBreakZ c.buf := by
      rcases hne with hne | rfl
      · exact isBreakZ_grow hv hne
      · rw [List.append_nil]
    rw [hg, hbl, cache_whole o hx, Out.ok_bind] at h
    rw [cache_whole o' hx', Out.ok_bind]
    by_cases hb : isBreakZ c.buf = true
    · rw [if_pos hb] at h ⊢
      injection h with h; subst h
      exact ⟨c, rfl, rfl⟩
    · rw [if_neg hb] at h ⊢
      obtain ⟨c1, h1, h⟩ := Out.bind_eq_ok.1 h
      have h1le : 1 ≤ c.buf.length := by
        rcases Nat.eq_zero_or_pos c.buf.length with h0 | h0
        · rw [List.length_eq_zero_iff.1 h0] at hb; exact absurd rfl hb
        · exact h0
      obtain ⟨c1, rfl, h1'⟩ := adv_back ht h1le h1
      rw [h1', Out.ok_bind]
      refine ih (adv_valid hv h1') ?_ h
      rw [(adv_ok h1').1]; simp only [List.length_drop]; omega

theorem skipBlanks_back {c x : Cur} (hv : validUtf8 c.buf = true) (h : skipBlanks o (grow t c) = .ok x) (hl : Left t x.buf) :
    ∃ c', x = grow t c' ∧ skipBlanks o' c = .ok c' := by
  unfold skipBlanks at h ⊢
  rw [cache_whole o hx, Out.ok_bind] at h
  rw [cache_whole o' hx', Out.ok_bind]
  obtain ⟨c1, h1, h⟩ := Out.bind_eq_ok.1 h
  by_cases hs : startsWith c1.buf b! '#' = true
  · rw [if_pos hs] at h
    have hm := (toBreak_moves hx h).1.suf
    obtain ⟨d, rfl, h1'⟩ := skipBlanksLoop_back hx hx' ht hv (Nat.lt_succ_self _) h1 (hl.suf hm)
    have hne := (hl.suf hm).ne
    have hvd := (skipBlanksLoop_moves hx' h1').1.valid hv
    obtain ⟨d', rfl, h'⟩ := toBreak_back hx hx' ht hvd (Nat.lt_succ_self _) h hl
    rw [h1', Out.ok_bind]
    refine ⟨d', rfl, ?_⟩
    have hs' : startsWith d.buf b! '#' = true := by
      rcases hne with hne | rfl
      · rw [← hs]; exact (startsWith_grow hne _).symm
      · rw [grow_nil] at hs; exact hs
    rw [if_pos hs', h']
  · rw [if_neg hs] at h
    injection h with h; subst h
    obtain ⟨d, rfl, h1'⟩ := skipBlanksLoop_back hx hx' ht hv (Nat.lt_succ_self _) h1 hl
    have hne := hl.ne
    rw [h1', Out.ok_bind]
    refine ⟨d, rfl, ?_⟩
    have hs' : ¬ startsWith d.buf b! '#' = true := by
      rcases hne with hne | rfl
      · intro h0; apply hs; rw [← h0]; exact startsWith_grow hne _
      · rw [grow_nil] at hs; exact hs
    rw [if_neg hs']

theorem scanHeaders_back {c x : Cur} {ch : ChompStyle} {ex : Option Nat} (h : scanHeaders o (grow t c) = .ok (ch, ex, x)) (hl : Left t x.buf) :
    ∃ c', x = grow t c' ∧ scanHeaders o' c = .ok (ch, ex, c') := by
  rcases hl with rfl | hl
  · rw [grow_nil] at h
    refine ⟨x, (grow_nil x).symm, ?_⟩
    unfold scanHeaders at h ⊢
    rw [cache_whole o hx] at h
    rw [cache_whole o' hx']
    exact h
  unfold scanHeaders at h ⊢
  rw [cache_whole o hx, Out.ok_bind] at h
  rw [cache_whole o' hx', Out.ok_bind]
  obtain ⟨c1, h1, h⟩ := Out.bind_eq_ok.1 h
  injection h with h; injection h with hch h; injection h with hex h; subst h
  have hg : (grow t c).buf = c.buf ++ t := rfl
  rw [hg] at h1 hch hex
  have hx1 := (adv_ok h1).1
  have hlen : t.length < (c.buf.length + t.length) -
      (if (if headerHas (c.buf ++ t) b! '+' then ChompStyle.Keep else if headerHas (c.buf ++ t) b! '-' then ChompStyle.Strip else ChompStyle.Clip) = ChompStyle.Clip
        then (if (headerDigit (c.buf ++ t)).isSome then 1 else 0) else (if (headerDigit (c.buf ++ t)).isSome then 1 else 0) + 1) := by
    rw [hx1] at hl
    simp only [List.length_drop, hg, List.length_append] at hl
    exact hl
  rcases Nat.lt_or_ge c.buf.length 2 with h2 | h2
  · -- one byte, and nothing was skipped
    match hc : c.buf with
    | [] => rw [hc] at hlen; simp at hlen; omega
    | _ :: _ :: _ => rw [hc] at h2; simp at h2; omega
    | [a] =>
      rw [hc] at hlen hch hex h1
      have hplus : headerHas ([a] ++ t) b! '+' = false := by
        cases hp : headerHas ([a] ++ t) b! '+' with
        | false => rfl
        | true => rw [hp] at hlen; simp at hlen; omega
      have hminus : headerHas ([a] ++ t) b! '-' = false := by
        cases hp : headerHas ([a] ++ t) b! '-' with
        | false => rfl
        | true => rw [hplus, hp] at hlen; simp at hlen; omega
      have hdig : headerDigit ([a] ++ t) = none := by
        cases hp : headerDigit ([a] ++ t) with
        | none => rfl
        | some i => rw [hplus, hminus, hp] at hlen; simp at hlen
      have hplus' : headerHas [a] b! '+' = false := by
        unfold headerHas at hplus ⊢
        rw [Bool.or_eq_false_iff] at hplus ⊢
        exact ⟨hplus.1, rfl⟩
      have hminus' : headerHas [a] b! '-' = false := by
        unfold headerHas at hminus ⊢
        rw [Bool.or_eq_false_iff] at hminus ⊢
        exact ⟨hminus.1, rfl⟩
      have hdig' : headerDigit [a] = none := by
        unfold headerDigit at hdig ⊢
        simp only [List.cons_append] at hdig
        split at hdig
        · cases hdig
        · rename_i hd; simp [hd]
      rw [hplus, hminus, hdig] at h1
      rw [hplus, hminus] at hch
      rw [hdig] at hex
      simp only [Bool.false_eq_true, if_false, Option.isSome_none, if_true] at h1 hch
      obtain ⟨c', rfl, h'⟩ := adv_back ht (Nat.zero_le _) h1
      rw [hplus', hminus', hdig']
      simp only [Bool.false_eq_true, if_false, Option.isSome_none, if_true]
      refine ⟨c', rfl, ?_⟩
      rw [h', Out.ok_bind, ← hch, ← hex]
  · rw [headerHas_grow h2, headerHas_grow h2, headerDigit_grow h2] at h1
    rw [headerHas_grow h2, headerHas_grow h2] at hch
    rw [headerDigit_grow h2] at hex
    have hle : (if (if headerHas c.buf b! '+' then ChompStyle.Keep else if headerHas c.buf b! '-' then ChompStyle.Strip else ChompStyle.Clip) = ChompStyle.Clip
        then (if (headerDigit c.buf).isSome then 1 else 0) else (if (headerDigit c.buf).isSome then 1 else 0) + 1) ≤ c.buf.length := by
      have hd : (if (headerDigit c.buf).isSome then 1 else 0) ≤ 1 := by split <;> omega
      by_cases hk : (if headerHas c.buf b! '+' then ChompStyle.Keep else if headerHas c.buf b! '-' then ChompStyle.Strip else ChompStyle.Clip) = ChompStyle.Clip
      · rw [if_pos hk]; omega
      · rw [if_neg hk]; omega
    obtain ⟨c', rfl, h'⟩ := adv_back ht hle h1
    refine ⟨c', rfl, ?_⟩
    simp only
    rw [h', Out.ok_bind, hch, hex]

theorem headTo_back {c x : Cur} {ch : ChompStyle} {ex : Option Nat} (hv : validUtf8 c.buf = true) (hn : 1 ≤ c.buf.length)
    (h : headTo o (grow t c) = .ok (ch, ex, x)) (hl : Left t x.buf) :
    ∃ c', x = grow t c' ∧ headTo o' c = .ok (ch, ex, c') := by
  unfold headTo at h ⊢
  rw [cache_whole o hx, Out.ok_bind] at h
  rw [cache_whole o' hx', Out.ok_bind]
  obtain ⟨c1, h1, h⟩ := Out.bind_eq_ok.1 h
  obtain ⟨c1, rfl, h1'⟩ := adv_back ht hn h1
  have v1 := adv_valid hv h1'
  obtain ⟨⟨ch', ex', c2⟩, h2, h⟩ := Out.bind_eq_ok.1 h
  obtain ⟨c3, h3, h⟩ := Out.bind_eq_ok.1 h
  rw [cache_whole o hx, Out.ok_bind] at h
  split at h
  · cases h
  rename_i hws
  injection h with h; injection h with hch h; injection h with hex h
  subst h; subst hch; subst hex
  have m3 := skipBlanks_moves hx h3
  obtain ⟨c2, rfl, h2'⟩ := scanHeaders_back hx hx' ht h2 (hl.suf m3.1.suf)
  have v2 : validUtf8 c2.buf = true := by
    unfold scanHeaders at h2'
    rw [cache_whole o' hx', Out.ok_bind] at h2'
    obtain ⟨d, hd, h2'⟩ := Out.bind_eq_ok.1 h2'
    injection h2' with h2'; injection h2' with _ h2'; injection h2' with _ h2'; subst h2'
    exact adv_valid v1 hd
  obtain ⟨c3, rfl, h3'⟩ := skipBlanks_back hx hx' ht v2 h3 hl
  have v3 := (skipBlanks_moves hx' h3').1.valid v2
  refine ⟨c3, rfl, ?_⟩
  rw [h1', Out.ok_bind, h2', Out.ok_bind]
  simp only
  rw [h3', Out.ok_bind, cache_whole o' hx', Out.ok_bind]
  have hws' : ¬ (!isWhiteSpaceZ c3.buf) = true := by
    rcases hl.ne with hne | rfl
    · rw [← isWhiteSpaceZ_grow v3 hne]; exact hws
    · rw [grow_nil] at hws; exact hws
  rw [if_neg hws']

theorem headTo_props {c x : Cur} {ch : ChompStyle} {ex : Option Nat} (h : headTo o c = .ok (ch, ex, x)) :
    Moves c x ∧ isBlank x.buf = false ∧ isWhiteSpaceZ x.buf = true := by
  unfold headTo at h
  rw [cache_whole o hx, Out.ok_bind] at h
  obtain ⟨c1, h1, h⟩ := Out.bind_eq_ok.1 h
  obtain ⟨⟨ch', ex', c2⟩, h2, h⟩ := Out.bind_eq_ok.1 h
  obtain ⟨c3, h3, h⟩ := Out.bind_eq_ok.1 h
  rw [cache_whole o hx, Out.ok_bind] at h
  split at h
  · cases h
  rename_i hws
  injection h with h; injection h with hch h; injection h with hex h
  subst h
  have m3 := skipBlanks_moves hx h3
  have m2 : Moves c1 c2 := by
    unfold scanHeaders at h2
    rw [cache_whole o hx, Out.ok_bind] at h2
    obtain ⟨d, hd, h2⟩ := Out.bind_eq_ok.1 h2
    injection h2 with h2; injection h2 with _ h2; injection h2 with _ h2; subst h2
    exact .adv hd
  exact ⟨((Moves.adv h1).trans m2).trans m3.1, m3.2, by simpa using hws⟩

theorem blockHeader_back {c x : Cur} {ch : ChompStyle} {ex : Option Nat} (hv : validUtf8 c.buf = true) (hn : 1 ≤ c.buf.length)
    (h : blockHeader o (grow t c) = .ok (ch, ex, x)) (hl : t.length ≤ x.buf.length) :
    ∃ c', x = grow t c' ∧ blockHeader o' c = .ok (ch, ex, c') := by
  rw [Chunk.blockHeader_eq] at h ⊢
  obtain ⟨⟨ch', ex', c1⟩, h1, h⟩ := Out.bind_eq_ok.1 h
  obtain ⟨c2, h2, h⟩ := Out.bind_eq_ok.1 h
  injection h with h; injection h with hch h; injection h with hex h
  subst h; subst hch; subst hex
  obtain ⟨m1, hb, hw⟩ := headTo_props hx hx' ht h1
  simp only at h2
  have hor : isBreak c1.buf = true ∨ c1.buf = [] := by
    unfold isWhiteSpaceZ at hw
    rw [hb, Bool.false_or, Bool.or_eq_true] at hw
    rcases hw with hw | hw
    · exact .inl hw
    · exact .inr (List.isEmpty_iff.1 hw)
  have hleft : Left t c1.buf := by
    rcases hor with hbr | h0
    · right
      have := breakLen_pos.2 hbr
      have := breakLen_le c1.buf
      rw [(line_ok h2).1] at hl
      simp only [List.length_drop] at hl
      omega
    · left
      have := (Moves.line h2).suf.length
      rw [h0] at this
      simp at this
      rw [this] at hl
      simpa using hl
  obtain ⟨c1, rfl, h1'⟩ := headTo_back hx hx' ht hv hn h1 hleft
  have v1 := (headTo_props hx' hx ht h1').1.valid hv
  rw [h1', Out.ok_bind]
  rcases hor with hbr | h0
  · obtain ⟨c2, rfl, h2'⟩ := line_back ht v1 hbr h2 hl
    exact ⟨c2, rfl, by simp only; rw [h2', Out.ok_bind]⟩
  · have ht0 : t = [] := by
      unfold grow at h0
      simp at h0; exact h0.2
    subst ht0
    rw [grow_nil] at h2
    exact ⟨c2, (grow_nil _).symm, by simp only; rw [h2, Out.ok_bind]⟩

theorem scanIndentLoop_back {indent fuel fuel' lines k : Nat} {c x : Cur} (hv : validUtf8 c.buf = true) (hf : c.buf.length < fuel')
    (h : scanIndentLoop o indent fuel (grow t c) lines = .ok (x, k)) (hl : t.length ≤ x.buf.length) :
    ∃ c', x = grow t c' ∧ scanIndentLoop o' indent fuel' c lines = .ok (c', k) := by
  induction fuel generalizing c fuel' lines with
  | zero => cases h
  | succ fuel ih =>
    obtain ⟨fuel', rfl⟩ : ∃ k, fuel' = k + 1 := ⟨fuel' - 1, by omega⟩
    rw [scanIndentLoop] at h ⊢
    have hg : (grow t c).buf = c.buf ++ t := rfl
    have hst : (grow t c).stats = c.stats := rfl
    rw [hg, hst] at h
    by_cases hne : c.buf = []
    · rw [hne]
      rw [if_neg (by rw [show isWhiteSpace [] = false from rfl]; simp)]
      rw [hne, List.nil_append] at h
      split at h
      · rename_i hc
        exfalso
        rw [Bool.and_eq_true] at hc
        split at h
        · rename_i hs
          obtain ⟨c1, h1, h⟩ := Out.bind_eq_ok.1 h
          rw [cache_whole o hx, Out.ok_bind] at h
          have := (scanIndentLoop_moves hx h).suf.length
          obtain ⟨r, hr⟩ := startsWith_iff.1 hs
          rw [(adv_ok h1).1] at this
          simp only [hg, hne, List.nil_append, List.length_drop] at this
          rw [hr] at this hl
          simp at this hl
          omega
        split at h
        · cases h
        · rename_i hs1 hs2
          obtain ⟨c1, h1, h⟩ := Out.bind_eq_ok.1 h
          rw [cache_whole o hx, Out.ok_bind] at h
          have := (scanIndentLoop_moves hx h).suf.length
          have hbr : isBreak t = true := by
            have := hc.2
            unfold isWhiteSpace isBlank at this
            simp only [Bool.or_eq_true] at this
            rcases this with (h5 | h5) | h5
            · exact absurd h5 hs1
            · exact absurd h5 hs2
            · exact h5
          have := breakLen_pos.2 hbr
          have := breakLen_le t
          rw [(line_ok h1).1] at *
          simp only [hg, hne, List.nil_append, List.length_drop] at *
          omega
      · injection h with h; injection h with h h'; subst h; subst h'
        exact ⟨c, rfl, rfl⟩
    rw [isWhiteSpace_grow hv hne, startsWith_grow hne, startsWith_grow hne] at h
    by_cases hc : (decide (c.stats.column < indent) && isWhiteSpace c.buf) = true
    · rw [if_pos hc] at h ⊢
      by_cases hs : startsWith c.buf b! ' ' = true
      · rw [if_pos hs] at h ⊢
        obtain ⟨c1, h1, h⟩ := Out.bind_eq_ok.1 h
        rw [cache_whole o hx, Out.ok_bind] at h
        obtain ⟨c1, rfl, h1'⟩ := adv_back ht (List.length_pos_iff.2 hne) h1
        rw [h1', Out.ok_bind, cache_whole o' hx', Out.ok_bind]
        refine ih (adv_valid hv h1') ?_ h
        have := List.length_pos_iff.2 hne
        rw [(adv_ok h1').1]; simp only [List.length_drop]; omega
      rw [if_neg hs] at h ⊢
      by_cases hs2 : startsWith c.buf 0x09 = true
      · rw [if_pos hs2] at h; cases h
      rw [if_neg hs2] at h ⊢
      obtain ⟨c1, h1, h⟩ := Out.bind_eq_ok.1 h
      rw [cache_whole o hx, Out.ok_bind] at h
      have hbr : isBreak c.buf = true := by
        rw [Bool.and_eq_true] at hc
        have := hc.2
        unfold isWhiteSpace isBlank at this
        simp only [Bool.or_eq_true] at this
        rcases this with (h5 | h5) | h5
        · exact absurd h5 hs
        · exact absurd h5 hs2
        · exact h5
      have hm := (scanIndentLoop_moves hx h).suf.length
      obtain ⟨c1, rfl, h1'⟩ := line_back ht hv (by rw [isBreak_grow hv hne]; exact hbr) h1 (by omega)
      rw [h1', Out.ok_bind, cache_whole o' hx', Out.ok_bind]
      refine ih (validUtf8_drop hv (line_ok h1').2 |> fun h => by rw [(line_ok h1').1]; exact h) ?_ h
      have := breakLen_pos.2 hbr
      have := breakLen_le c.buf
      rw [(line_ok h1').1]; simp only [List.length_drop]; omega
    · rw [if_neg hc] at h ⊢
      injection h with h; injection h with h h'; subst h; subst h'
      exact ⟨c, rfl, rfl⟩

theorem scanIndent_back {indent lines k : Nat} {c x : Cur} (hv : validUtf8 c.buf = true)
    (h : scanIndent o indent (grow t c) lines = .ok (x, k)) (hl : t.length ≤ x.buf.length) :
    ∃ c', x = grow t c' ∧ scanIndent o' indent c lines = .ok (c', k) := by
  unfold scanIndent at h ⊢
  have hst : (grow t c).stats = c.stats := rfl
  rw [hst] at h
  by_cases hc : c.stats.column ≥ indent
  · rw [if_pos hc] at h ⊢
    injection h with h; injection h with h h'; subst h; subst h'
    exact ⟨c, rfl, rfl⟩
  · rw [if_neg hc] at h ⊢
    rw [cache_whole o hx, Out.ok_bind] at h
    rw [cache_whole o' hx', Out.ok_bind]
    exact scanIndentLoop_back hx hx' ht hv (Nat.lt_succ_self _) h hl

theorem detectBlanks_back {fuel fuel' : Nat} {st x : DetectSt} (hv : validUtf8 st.cur.buf = true) (hf : st.cur.buf.length < fuel')
    (h : detectBlanks o fuel (DetectSt.grow t st) = .ok x) (hl : t.length ≤ x.cur.buf.length) :
    ∃ st', x = DetectSt.grow t st' ∧ detectBlanks o' fuel' st = .ok st' := by
  induction fuel generalizing st fuel' with
  | zero => cases h
  | succ fuel ih =>
    obtain ⟨fuel', rfl⟩ : ∃ k, fuel' = k + 1 := ⟨fuel' - 1, by omega⟩
    rw [detectBlanks] at h ⊢
    have hg : (DetectSt.grow t st).cur = grow t st.cur := rfl
    have hgb : (grow t st.cur).buf = st.cur.buf ++ t := rfl
    rw [hg, hgb] at h
    by_cases hne : st.cur.buf = []
    · rw [hne]
      rw [if_neg (by rw [show isBlank [] = false from rfl]; simp)]
      rw [hne, List.nil_append] at h
      split at h
      · exfalso
        rename_i hb
        rw [cache_whole o hx, Out.ok_bind] at h
        split at h
        · cases h
        obtain ⟨c1, h1, h⟩ := Out.bind_eq_ok.1 h
        have := (detectBlanks_moves hx h).suf.length
        obtain ⟨b, r, hr, -⟩ := isBlank_iff.1 hb
        rw [(adv_ok h1).1] at this
        simp only [hgb, hne, List.nil_append, List.length_drop] at this
        rw [hr] at this hl
        simp at this hl
        omega
      · injection h with h; subst h; exact ⟨st, rfl, rfl⟩
    rw [isBlank_grow hne, startsWith_grow hne, cache_whole o hx, Out.ok_bind] at h
    rw [cache_whole o' hx', Out.ok_bind]
    by_cases hb : isBlank st.cur.buf = true
    · rw [if_pos hb] at h ⊢
      by_cases hs : startsWith st.cur.buf 0x09 = true
      · rw [if_pos hs] at h; cases h
      rw [if_neg hs] at h ⊢
      obtain ⟨c1, h1, h⟩ := Out.bind_eq_ok.1 h
      obtain ⟨c1, rfl, h1'⟩ := adv_back ht (List.length_pos_iff.2 hne) h1
      rw [h1', Out.ok_bind]
      refine ih (st := { st with cur := c1, canBorrow := st.canBorrow && !(0 < st.lines) }) (adv_valid hv h1') ?_ h
      have := List.length_pos_iff.2 hne
      rw [(adv_ok h1').1]; simp only [List.length_drop]; omega
    · rw [if_neg hb] at h ⊢
      injection h with h; subst h; exact ⟨st, rfl, rfl⟩

theorem detectLoop_back {fuel fuel' : Nat} {st x : DetectSt} (hv : validUtf8 st.cur.buf = true) (hf : st.cur.buf.length < fuel')
    (h : detectLoop o fuel (DetectSt.grow t st) = .ok x) (hl : t.length ≤ x.cur.buf.length) :
    ∃ st', x = DetectSt.grow t st' ∧ detectLoop o' fuel' st = .ok st' := by
  induction fuel generalizing st fuel' with
  | zero => cases h
  | succ fuel ih =>
    obtain ⟨fuel', rfl⟩ : ∃ k, fuel' = k + 1 := ⟨fuel' - 1, by omega⟩
    rw [detectLoop, cache_whole o hx, Out.ok_bind] at h
    rw [detectLoop, cache_whole o' hx', Out.ok_bind]
    obtain ⟨st1, h1, h⟩ := Out.bind_eq_ok.1 h
    simp only [cache_whole o hx, Out.ok_bind] at h
    simp only [cache_whole o' hx', Out.ok_bind]
    by_cases hb : isBreak st1.cur.buf = true
    · rw [if_pos hb] at h
      obtain ⟨c1, h2, h⟩ := Out.bind_eq_ok.1 h
      have m2 := (detectLoop_moves hx h).suf.length
      have m1 := (Moves.line h2).suf.length
      simp only at m2
      obtain ⟨st1, rfl, h1'⟩ := detectBlanks_back hx hx' ht hv (Nat.lt_succ_self _) h1 (by omega)
      have mm := (detectBlanks_moves hx' h1')
      have v1 := mm.valid hv
      obtain ⟨c1, rfl, h2'⟩ := line_back ht v1 hb h2 (by omega)
      have hne : st1.cur.buf ≠ [] := by
        intro h0
        have := (line_ok h2).1
        have hbl := breakLen_pos.2 hb
        have hble := breakLen_le (DetectSt.grow t st1).cur.buf
        rw [this] at m2
        simp only [List.length_drop] at m2
        have h7 : (DetectSt.grow t st1).cur.buf.length = t.length := by
          show (st1.cur.buf ++ t).length = _
          rw [h0]; simp
        omega
      have hb' : isBreak st1.cur.buf = true := by rw [← isBreak_grow v1 hne]; exact hb
      rw [h1', Out.ok_bind, if_pos hb', h2', Out.ok_bind]
      refine ih (st := { st1 with
          cur := c1
          indent := if st1.cur.stats.column > st1.indent then st1.cur.stats.column else st1.indent
          lines := st1.lines + 1 }) (by rw [(line_ok h2').1]; exact validUtf8_drop v1 (line_ok h2').2) ?_ h
      have := breakLen_pos.2 hb'
      have := breakLen_le st1.cur.buf
      have := mm.suf.length
      rw [(line_ok h2').1]; simp only [List.length_drop]; omega
    · rw [if_neg hb] at h
      injection h with h; subst h
      obtain ⟨st1, rfl, h1'⟩ := detectBlanks_back hx hx' ht hv (Nat.lt_succ_self _) h1 hl
      have v1 := (detectBlanks_moves hx' h1').valid hv
      have hb' : ¬ isBreak st1.cur.buf = true := by
        intro h0
        have hne : st1.cur.buf ≠ [] := by intro h1; rw [h1] at h0; cases h0
        apply hb
        rw [← h0]
        exact isBreak_grow v1 hne
      rw [h1', Out.ok_bind, if_neg hb']
      exact ⟨_, rfl, rfl⟩

theorem blockIndent_back {ex : Option Nat} {k : Nat} {c : Cur} {x : DetectSt} (hv : validUtf8 c.buf = true)
    (h : blockIndent o ex k (grow t c) = .ok x) (hl : t.length ≤ x.cur.buf.length) :
    ∃ st', x = DetectSt.grow t st' ∧ blockIndent o' ex k c = .ok st' := by
  cases ex with
  | some n =>
    injection h with h; subst h
    exact ⟨_, rfl, rfl⟩
  | none =>
    unfold blockIndent detectIndent at h ⊢
    simp only at h ⊢
    obtain ⟨st, h1, h⟩ := Out.bind_eq_ok.1 h
    injection h with h; subst h
    obtain ⟨st', rfl, h1'⟩ := detectLoop_back hx hx' ht (st := { cur := c }) (fuel' := c.buf.length + 1) hv (Nat.lt_succ_self _) h1 hl
    rw [h1', Out.ok_bind]
    exact ⟨_, rfl, rfl⟩

end

end Yary.Deferred
