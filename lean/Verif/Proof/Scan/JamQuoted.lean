import Verif.Proof.Scan.Jams
import Verif.Proof.Scan.FaultQuoted

/-! # Where the scanner panics: quoted scalars -/

namespace Yary

open Spec

variable {opts : SFlags} {J : Prop} {single : Bool}

/-- The text `v` a quoted scalar stands for so far, of the text `t0` after the quote. -/
structure QuotedAt (t0 : Str) (st : FlowSt) (v : Str) : Prop where
  text : ∃ p, t0 = p ++ st.cur.buf ∧ (st.canBorrow = true → v = p)
  borrow : st.canBorrow = true → st.scratch = []
  copy : st.canBorrow = false → st.scratch = v
  valid : validUtf8 st.cur.buf = true

theorem noBorrow_jams {q : Byte} {t0 : Str} {st : FlowSt} {v : Str} (h0 : validUtf8 t0 = true) (hi : QuotedAt t0 st v) :
    Jams (st.noBorrow (q :: t0)) (fun st' => st' = { st with scratch := v, canBorrow := false } ∧ QuotedAt t0 st' v) J := by
  have hq : QuotedAt t0 { st with scratch := v, canBorrow := false } v :=
    ⟨(by obtain ⟨p, h, -⟩ := hi.text; exact ⟨p, h, fun h => (by cases h)⟩), fun h => (by cases h), fun _ => rfl, hi.valid⟩
  unfold FlowSt.noBorrow
  split
  · rename_i h
    obtain ⟨p, h1, h2⟩ := hi.text
    have h2 := h2 h
    subst h2
    refine (slice_jams (p := [q]) (q := v) (t := st.cur.buf) (by rw [h1]; rfl) rfl (by rw [h1]; simp; omega) (h1 ▸ h0) hi.valid).bind ?_
    rintro _ rfl
    rw [hi.borrow h]
    exact .ok ⟨rfl, hq⟩
  · rename_i h
    have h : st.canBorrow = false := by simpa using h
    have : st = { st with scratch := v, canBorrow := false } := by rw [← hi.copy h, ← h]
    rw [← this] at hq
    exact .ok ⟨this, hq⟩

theorem QuotedAt.push {t0 : Str} {st : FlowSt} {v t : Str} {b : Byte} (hi : QuotedAt t0 st v) (hb : st.cur.buf = b :: t) (hn : isBreak st.cur.buf = false) :
    Jams st.push (fun st' => QuotedAt t0 st' (v ++ [b]) ∧ b < 0x80 ∧ st'.cur = ⟨t, st.cur.stats.update 1 0 1⟩ ∧ st'.whitespace = st.whitespace ∧
      st'.escapedBreak = st.escapedBreak) (Wide st.cur.buf) := by
  unfold FlowSt.push
  refine (adv_char_jams hb hi.valid hn).bind ?_
  rintro _ ⟨rfl, h1, h2⟩
  refine .ok ⟨⟨?_, fun h => ?_, fun h => ?_, h2⟩, h1, rfl, rfl, rfl⟩
  · obtain ⟨p, h3, h4⟩ := hi.text
    exact ⟨p ++ [b], by simp [h3, hb], fun h => by rw [h4 h]⟩
  · have h : st.canBorrow = true := h
    simp [h, hi.borrow h]
  · have h : st.canBorrow = false := h
    simp [h, hi.copy h, hb]

/-- Moving on without a copy, after the copying has begun. -/
theorem QuotedAt.move {t0 : Str} {st : FlowSt} {v : Str} (hi : QuotedAt t0 st v) (hc : st.canBorrow = false) {st' : FlowSt} {w t : Str}
    (hb : st.cur.buf = w ++ t) (hv : validUtf8 t = true) (e1 : st'.cur.buf = t) (e2 : st'.canBorrow = false) :
    QuotedAt t0 st' st'.scratch := by
  obtain ⟨p, h1, -⟩ := hi.text
  exact ⟨⟨p ++ w, by simp [h1, hb, e1], fun h => (by rw [e2] at h; cases h)⟩, fun h => (by rw [e2] at h; cases h), fun _ => rfl, by rw [e1]; exact hv⟩

/-- A character code in the scalar that is none. -/
def BadCode (single : Bool) (s0 : Str) : Prop :=
  ∃ b d t v, single = false ∧ Within single s0 (0x5C :: b :: (d ++ t)) ∧ (b, d.length) ∈ escapeCodes ∧ hexNumber d = some v ∧ ¬ IsScalarValue v

theorem hex_ascii {d : Str} {v r : Nat} (h : hexFrom v d = some r) : Ascii d := by
  induction d generalizing v with
  | nil => exact .nil
  | cons b d ih =>
    simp only [hexFrom] at h
    split at h
    · rename_i x hx
      refine .cons ?_ (ih h)
      by_cases hb : isHexDigit b = true
      · unfold isHexDigit at hb
        simp only [Bool.or_eq_true, Bool.and_eq_true, decide_eq_true_eq] at hb
        have e : b! '9' = 0x39 ∧ b! 'F' = 0x46 ∧ b! 'f' = 0x66 := by decide
        rw [e.1, e.2.1, e.2.2] at hb
        byte_omega
      · rw [hexDigit_none (by simpa using hb)] at hx
        cases hx
    · cases h

theorem escape_ascii {e : Str} (h : EscapeForm e) : Ascii e := by
  cases h with
  | letter h =>
    refine .cons ?_ .nil
    revert h
    simp only [escapeLetters, List.mem_cons, Prod.mk.injEq, List.not_mem_nil, or_false]
    intro h
    rcases h with h | h | h | h | h | h | h | h | h | h | h | h | h | h | h | h | h | h <;> (rw [h.1]; decide)
  | code h hd =>
    refine .cons ?_ (hex_ascii hd)
    revert h
    simp only [escapeCodes, List.mem_cons, Prod.mk.injEq, List.not_mem_nil, or_false]
    intro h
    rcases h with h | h | h <;> (rw [h.1]; decide)

theorem readHex_jams (n v : Nat) (s : Str) : Jams (readHex n v s) (fun r => hexFrom v (s.take n) = some r ∧ n ≤ s.length) J := by
  refine ⟨fun r h => ?_, ?_⟩
  · obtain ⟨h1, -, -, h2⟩ := (readHex_sat (P := True) n v s).of_ok h
    exact ⟨h2, h1⟩
  · induction n generalizing v s with
    | zero => intro h; cases h
    | succ n ih =>
      cases s with
      | nil => intro h; cases h
      | cons b t =>
        rw [readHex]
        split
        · exact ih _ _
        · intro h; cases h

theorem flowUnescape_jams {s0 t : Str} (hs : single = false) (h : Within single s0 (0x5C :: t)) :
    Jams (flowUnescape opts (0x5C :: t)) (fun r => ∃ e t', t = e ++ t' ∧ r.2 = e.length + 1 ∧ EscapeForm e ∧
      (BadCode single s0 ∨ validUtf8 r.1 = true)) J := by
  unfold flowUnescape
  refine cache_jam ?_
  simp only [startsWith, List.head?_cons, beq_self_eq_true, Bool.not_true, Bool.false_eq_true, ↓reduceIte, List.drop_succ_cons, List.drop_zero]
  refine cache_jam ?_
  cases t with
  | nil => exact .err
  | cons b t =>
    split
    · exact .err
    · exact .err
    · rename_i w hk
      obtain ⟨c, hc, -⟩ := escape_letters hk
      exact .ok ⟨[b], t, rfl, rfl, .letter hc, .inr (escapeKind_bytes hk).1⟩
    · rename_i n hk
      have hn := escapeKind_codes.1 hk
      simp only [List.drop_succ_cons, List.drop_zero]
      refine cache_jam ((readHex_jams n 0 t).bind ?_)
      rintro v ⟨h1, h2⟩
      have hl : (t.take n).length = n := by simp; omega
      have hn' : (b, (t.take n).length) ∈ escapeCodes := by rw [hl]; exact hn
      refine .ok ⟨b :: t.take n, t.drop n, by simp, by simp only [List.length_cons, hl]; omega, .code hn' h1, ?_⟩
      by_cases hv : IsScalarValue v
      · right
        exact validUtf8_encodePoint hv
      · left
        exact ⟨b, t.take n, t.drop n, v, hs, by simpa using h, hn', h1, hv⟩

theorem bad_append {B : Prop} {v w : Str} (h : B ∨ validUtf8 v = true) (hw : B ∨ validUtf8 w = true) : B ∨ validUtf8 (v ++ w) = true := by
  rcases h with h | h
  · exact .inl h
  · rcases hw with hw | hw
    · exact .inl hw
    · right
      rw [validUtf8_append h]
      exact hw

theorem valid_one {b : Byte} (h : b < 0x80) : validUtf8 [b] = true := by
  rw [validUtf8_cons h]; rfl

theorem flowWord_jams {q : Byte} {t0 : Str} {fuel : Nat} {st : FlowSt} {v : Str} (h0 : validUtf8 t0 = true) (hi : QuotedAt t0 st v)
    (hv : BadCode single t0 ∨ validUtf8 v = true) (h : Within single t0 st.cur.buf) :
    Jams (flowWord opts (q :: t0) single fuel st)
      (fun r => (∃ v', QuotedAt t0 r.2 v' ∧ (BadCode single t0 ∨ validUtf8 v' = true)) ∧
        (r.1 = false → isWhiteSpaceZ r.2.cur.buf = true ∧ AtSpace single t0 r.2.cur.buf) ∧
        (r.1 = true → Within single t0 r.2.cur.buf ∧ ∃ u, r.2.cur.buf = quoteMark single :: u)) (QuotedJam single t0) := by
  induction fuel generalizing st v with
  | zero => exact .diverge
  | succ fuel ih =>
    rw [flowWord]
    split
    · rename_i hw
      exact .ok ⟨⟨v, hi, hv⟩, fun _ => ⟨hw, .inl h⟩, fun h => (by cases h)⟩
    · rename_i hw
      obtain ⟨b, t, hb, hnb, hnl⟩ := isWhiteSpaceZ_false hw
      rw [hb] at hnl
      obtain ⟨k1, k2⟩ := not_blank.1 hnl
      refine cache_jam ?_
      split
      · rename_i hq
        simp only [Bool.and_eq_true] at hq
        obtain ⟨hs, hq⟩ := hq
        obtain ⟨u, hu⟩ := List.isPrefixOf_iff_prefix.1 hq
        refine (noBorrow_jams h0 hi).bind ?_
        rintro _ ⟨rfl, hi'⟩
        have hvu : validUtf8 u = true := validUtf8_drop_ascii (p := [0x27, 0x27]) (by unfold Ascii; decide) (hu ▸ hi.valid)
        refine (adv_jams (p := [0x27, 0x27]) hu.symm rfl hvu).bind ?_
        rintro _ rfl
        refine ih (v := v ++ [0x27]) (hi'.move rfl (w := [0x27, 0x27]) hu.symm hvu rfl rfl) (bad_append hv (.inr (by decide))) ?_
        rw [← hu] at h
        exact .quote h hs
      · rename_i hqq
        split
        · rename_i hq
          refine .ok ⟨⟨v, hi, hv⟩, fun h => (by cases h), fun _ => ⟨h, t, ?_⟩⟩
          rw [hb]
          cases single <;> simpa [hb, startsWith, quoteMark] using hq
        · rename_i hq
          have hbq : b ≠ quoteMark single := by
            rintro rfl
            cases single <;> simp [hb, startsWith, quoteMark] at hq
          split
          · rename_i he
            simp only [Bool.and_eq_true, Bool.not_eq_true'] at he
            obtain ⟨⟨hs, he⟩, hbr⟩ := he
            have : b = 0x5C := by simpa [hb, startsWith] using he
            subst this
            refine (noBorrow_jams h0 hi).bind ?_
            rintro _ ⟨rfl, hi'⟩
            have ht := valid_tail (hb ▸ hi.valid) (by decide)
            refine (adv_jams (p := [0x5C]) hb rfl ht).bind ?_
            rintro _ rfl
            cases fuel with
            | zero => exact .diverge
            | succ fuel =>
              rw [flowWord]
              simp only [hb, List.drop_succ_cons, List.drop_zero] at hbr
              have hw' : isWhiteSpaceZ t = true := by simp [isWhiteSpaceZ, hbr]
              rw [if_pos hw']
              exact .ok ⟨⟨v, hi'.move rfl (w := [0x5C]) hb ht rfl rfl, hv⟩, fun _ => ⟨hw', .inr ⟨hs, atBreak_iff.2 hbr, hb ▸ h⟩⟩,
                fun h => (by cases h)⟩
          · rename_i hne
            split
            · rename_i he
              simp only [Bool.and_eq_true, Bool.not_eq_true'] at he
              obtain ⟨hs, he⟩ := he
              have : b = 0x5C := by simpa [hb, startsWith] using he
              subst this
              refine (noBorrow_jams h0 hi).bind ?_
              rintro _ ⟨rfl, hi'⟩
              simp only
              have hb' := hb
              rw [hb]
              rw [hb] at h
              refine (flowUnescape_jams hs h).bind ?_
              rintro ⟨w, n⟩ ⟨e, t', rfl, rfl, h2, h3⟩
              have hvt : validUtf8 t' = true :=
                validUtf8_drop_ascii (p := 0x5C :: e) (.cons (by decide) (escape_ascii h2)) (by simpa [hb'] using hi.valid)
              refine (adv_jams (p := 0x5C :: e) (t := t') (by rw [hb']; rfl) rfl hvt).bind ?_
              rintro _ rfl
              exact ih (v := v ++ w) (hi'.move rfl (w := 0x5C :: e) hb' hvt rfl rfl) (bad_append hv h3) (.escape h hs h2)
            · rename_i he
              refine ((hi.push hb hnb).mono (fun _ h => h) fun hwd => .wide h hwd).bind ?_
              rintro st1 ⟨g1, g2, g3, -, -⟩
              refine ih g1 (bad_append hv (.inr (valid_one g2))) ?_
              rw [g3]
              rw [hb] at h hnb
              refine .char h ⟨fun h => k1 t (by rw [h]), fun h => k2 t (by rw [h]), not_break.1 hnb⟩ hbq ?_
              rintro rfl rfl
              simp [hb, startsWith] at he

/-- While white space is read: the blanks at the end of what was read. -/
def Trails (single : Bool) (t0 : Str) (st : FlowSt) : Prop :=
  ∃ v bl, QuotedAt t0 st (v ++ bl) ∧ bl.length = st.whitespace ∧ (∀ b ∈ bl, b < 0x80) ∧ (BadCode single t0 ∨ validUtf8 v = true)

theorem flowSpace_jams {q : Byte} {t0 : Str} {fuel : Nat} {st : FlowSt} (h0 : validUtf8 t0 = true) (hi : Trails single t0 st) :
    Jams (flowSpace opts (q :: t0) fuel st) (fun st' => Trails single t0 st') J := by
  induction fuel generalizing st with
  | zero => exact .diverge
  | succ fuel ih =>
    obtain ⟨v, bl, hq, hw, hbl, hv⟩ := hi
    rw [flowSpace]
    refine cache_jam ?_
    split
    · rename_i hb
      obtain ⟨b, t, hbuf, hbb⟩ := isBlank_iff.1 hb
      have hb8 : b < 0x80 := by rcases hbb with rfl | rfl <;> decide
      refine Jams.bind ((hq.push hbuf (isBlank_break hb)).mono (fun _ h => h) ?_) ?_
      · rintro ⟨⟨x, y, h1, h2⟩, -⟩
        rw [hbuf] at h1
        obtain ⟨rfl, -⟩ := List.cons.inj h1
        byte_omega
      · rintro st1 ⟨g1, g2, g3, g4, -⟩
        refine ih ⟨v, bl ++ [b], ?_, ?_, ?_, hv⟩
        · rw [← List.append_assoc]
          exact ⟨g1.text, g1.borrow, g1.copy, g1.valid⟩
        · simp [hw, g4]
        · intro x hx
          rcases List.mem_append.1 hx with hx | hx
          · exact hbl x hx
          · rw [List.mem_singleton.1 hx]; exact g2
    · split
      · rename_i hb
        refine (noBorrow_jams h0 hq).bind ?_
        rintro _ ⟨rfl, hi'⟩
        refine (line_jams hq.valid hb).bind ?_
        rintro _ ⟨-, w, t, -, g1, rfl, g2⟩
        by_cases he : st.escapedBreak = some .Start
        · simp only [he, ↓reduceIte]
          refine ih ⟨v ++ bl, [], ?_, rfl, by simp, bad_append hv (.inr ?_)⟩
          · rw [List.append_nil]
            exact hi'.move rfl g1 g2 rfl rfl
          · have : Ascii bl := hbl
            exact this.validUtf8
        · simp only [he, ↓reduceIte]
          exact ih ⟨v, bl, hi'.move rfl g1 g2 rfl rfl, hw, hbl, hv⟩
      · exact .ok ⟨v, bl, hq, hw, hbl, hv⟩

theorem truncEnd_jams {v bl : Str} {n : Nat} (h : bl.length = n) : Jams (truncEnd (v ++ bl) n) (fun r => r = v) J := by
  unfold truncEnd
  rw [if_pos (by simp; omega)]
  refine .ok ?_
  rw [List.length_append, h, Nat.add_sub_cancel, List.take_left]

theorem flowJoin_jams {q : Byte} {t0 : Str} {st : FlowSt} (h0 : validUtf8 t0 = true) (hi : Trails single t0 st) :
    Jams (flowJoin (q :: t0) st) (fun st' => ∃ v, QuotedAt t0 st' v ∧ (BadCode single t0 ∨ validUtf8 v = true)) J := by
  obtain ⟨v, bl, hq, hw, hbl, hv⟩ := hi
  have hva : validUtf8 bl = true := (show Ascii bl from hbl).validUtf8
  unfold flowJoin
  split
  · exact .ok ⟨_, hq, bad_append hv (.inr hva)⟩
  · refine (noBorrow_jams h0 hq).bind ?_
    rintro _ ⟨rfl, hi'⟩
    refine (truncEnd_jams hw).bind ?_
    rintro _ rfl
    refine .ok ⟨_, hi'.move rfl (w := []) rfl hq.valid rfl rfl, ?_⟩
    simp only
    split
    · exact bad_append hv (.inr (by decide))
    · exact hv
  · rename_i n _
    refine (noBorrow_jams h0 hq).bind ?_
    rintro _ ⟨rfl, hi'⟩
    refine (truncEnd_jams hw).bind ?_
    rintro _ rfl
    refine .ok ⟨_, hi'.move rfl (w := []) rfl hq.valid rfl rfl, bad_append hv (.inr ?_)⟩
    exact (Ascii.replicate _ (by decide)).validUtf8

theorem flowLoop_jams {q : Byte} {t0 : Str} {fuel : Nat} {st : FlowSt} {v : Str} (h0 : validUtf8 t0 = true) (hi : QuotedAt t0 st v)
    (hv : BadCode single t0 ∨ validUtf8 v = true) (h : AtHead single t0 st.cur) :
    Jams (flowLoop opts (q :: t0) single fuel st) (fun st' => (∃ v', QuotedAt t0 st' v' ∧ (BadCode single t0 ∨ validUtf8 v' = true)) ∧
      Within single t0 st'.cur.buf ∧ ∃ u, st'.cur.buf = quoteMark single :: u) (QuotedJam single t0) := by
  induction fuel generalizing st v with
  | zero => exact .diverge
  | succ fuel ih =>
    rw [flowLoop]
    refine cache_jam ?_
    split
    · exact .err
    · rename_i hd
      have hw := head_within h hd
      split
      · exact .err
      · refine cache_jam ?_
        refine (flowWord_jams (st := { st with escapedBreak := none }) (v := v) h0 ⟨hi.text, hi.borrow, hi.copy, hi.valid⟩ hv hw).bind ?_
        rintro ⟨done, st1⟩ ⟨⟨v1, g1, g2⟩, h1, h2⟩
        cases done with
        | true =>
          obtain ⟨h3, h4⟩ := h2 rfl
          exact .ok ⟨⟨v1, g1, g2⟩, h3, h4⟩
        | false =>
          obtain ⟨h1, h2⟩ := h1 rfl
          simp only [Bool.false_eq_true, ↓reduceIte] at h1 h2 ⊢
          refine Jams.bind ((flowSpace_jams (single := single) h0 ⟨v1, [], ?_, rfl, by simp, g2⟩).faults (flowSpace_faults (opts := opts) (F := fun _ => True))) ?_
          · rw [List.append_nil]
            exact ⟨g1.text, g1.borrow, g1.copy, g1.valid⟩
          · rintro st2 ⟨g3, ⟨n, h3⟩, h4⟩
            simp only at h3 h4
            refine ((flowJoin_jams h0 g3).faults (flowJoin_faults (opts := opts) (F := fun _ => True) st2)).bind ?_
            rintro st3 ⟨⟨v3, g4, g5⟩, h5⟩
            refine ih g4 g5 ?_
            rw [h5]
            exact space_head h1 h2 h3 h4

/-- Double and single quoted scalars. -/
theorem scanFlowEager_jams {t : Str} {m : MStats} (hv : validUtf8 t = true) :
    Jams (scanFlowEager opts single ⟨quoteMark single :: t, m⟩) (fun r => validUtf8 r.2.buf = true) (QuotedJam single t) := by
  unfold scanFlowEager
  have hq : quoteMark single < 0x80 := by cases single <;> decide
  refine cache_jam ((adv_jams (p := [quoteMark single]) rfl rfl hv).bind ?_)
  rintro _ rfl
  refine (flowLoop_jams (v := []) hv ⟨⟨[], rfl, fun _ => rfl⟩, fun _ => rfl, fun h => (by cases h), hv⟩ (.inr rfl) ?_).bind ?_
  · exact .inl ⟨.start, .inl (by simp [MStats.update])⟩
  · rintro st ⟨⟨v, h1, h2⟩, h3, u, h4⟩
    refine Jams.bind (Q := fun _ => True) ?_ fun _ _ => cache_jam ?_
    · unfold flowSlice
      split
      · rename_i hc
        obtain ⟨p, g1, g2⟩ := h1.text
        have g2 := g2 hc
        subst g2
        refine (slice_jams (p := [quoteMark single]) (q := v) (t := st.cur.buf) ?_ rfl ?_ (g1 ▸ hv) h1.valid).post fun _ _ => trivial
        · rw [← g1]; rfl
        · have := congrArg List.length g1
          simp only [List.length_append] at this
          simp; omega
      · rename_i hc
        unfold fromUtf8Unwrap
        split
        · exact .ok trivial
        · rename_i hn
          rw [h1.copy (by simpa using hc)] at hn
          rcases h2 with ⟨b, d, t', x, k1, k2, k3, k4, k5⟩ | h2
          · refine .panic (.code k1 k2 k3 k4 k5 (r := u) ?_)
            subst k1
            rw [h4] at h3
            exact h3
          · exact absurd h2 hn
    · have hu := valid_tail (h4 ▸ h1.valid) hq
      refine (adv_jams (p := [quoteMark single]) h4 rfl hu).bind ?_
      rintro _ rfl
      exact .ok hu

/-! ### Quoted scalars that are not read at once -/

theorem flowLazyLoop_jams {fuel : Nat} {c : Cur} (hv : validUtf8 c.buf = true) :
    Jams (flowLazyLoop opts single fuel c) (fun c' => validUtf8 c'.buf = true ∧ ∃ p, c.buf = p ++ c'.buf) J := by
  induction fuel generalizing c with
  | zero => exact .diverge
  | succ fuel ih =>
    rw [flowLazyLoop]
    refine cache_jam ?_
    have next : ∀ {p t : Str} {m : MStats}, c.buf = p ++ t → validUtf8 t = true →
        Jams (flowLazyLoop opts single fuel ⟨t, m⟩) (fun c' => validUtf8 c'.buf = true ∧ ∃ p, c.buf = p ++ c'.buf) J := by
      intro p t m hb ht
      refine (ih (c := ⟨t, m⟩) ht).post ?_
      rintro c' ⟨h1, p', h2⟩
      exact ⟨h1, p ++ p', by rw [hb, List.append_assoc, ← h2]⟩
    split
    · exact .err
    · rename_i hne
      split
      · rename_i hp
        obtain ⟨t, ht⟩ : ∃ t, c.buf = [if single then 0x27 else 0x5C, quoteMark single] ++ t := by
          cases single
          · simp only [Bool.false_and, Bool.false_or, Bool.not_false, Bool.true_and] at hp
            obtain ⟨t, h⟩ := List.isPrefixOf_iff_prefix.1 hp
            exact ⟨t, h.symm⟩
          · simp only [Bool.true_and, Bool.not_true, Bool.false_and, Bool.or_false] at hp
            obtain ⟨t, h⟩ := List.isPrefixOf_iff_prefix.1 hp
            exact ⟨t, h.symm⟩
        have hv' : validUtf8 t = true := by
          rw [ht] at hv
          refine validUtf8_drop_ascii (p := [if single then 0x27 else 0x5C, quoteMark single]) ?_ hv
          cases single <;> simp [Ascii, quoteMark]
        refine (adv_jams ht rfl hv').bind ?_
        rintro _ rfl
        exact next ht hv'
      · split
        · rename_i hq
          obtain ⟨t, ht⟩ : ∃ t, c.buf = quoteMark single :: t := by
            cases single
            · simp only [Bool.false_and, Bool.false_or, Bool.not_false, Bool.true_and] at hq
              exact startsWith_iff.1 hq
            · simp only [Bool.true_and, Bool.not_true, Bool.false_and, Bool.or_false] at hq
              exact startsWith_iff.1 hq
          have ht' := valid_tail (ht ▸ hv) (by cases single <;> decide)
          refine (adv_jams (p := [quoteMark single]) ht rfl ht').post ?_
          rintro _ rfl
          exact ⟨ht', [quoteMark single], ht⟩
        · split
          · rename_i hb
            refine (line_jams hv hb).bind ?_
            rintro _ ⟨-, w, t, -, g1, rfl, g2⟩
            exact next g1 g2
          · obtain ⟨ch, r, hc, hr⟩ : ∃ ch r, c.buf = utf8Char ch ++ r ∧ validUtf8 r = true := by
              cases hb : c.buf with
              | nil => simp [hb] at hne
              | cons b t =>
                rw [hb] at hv
                exact validUtf8_uncons hv
            obtain ⟨b, t, hbt, -, -, -, hwd⟩ := utf8Char_shape ch
            refine (adv_jams hc ?_ hr).bind ?_
            · rw [hc, hbt, List.cons_append, hwd, List.length_cons]
            · rintro _ rfl
              exact next hc hr

theorem scanFlowLazy_jams {t : Str} {m : MStats} (hv : validUtf8 t = true) :
    Jams (scanFlowLazy opts single ⟨quoteMark single :: t, m⟩) (fun r => validUtf8 r.2.buf = true) J := by
  unfold scanFlowLazy
  refine cache_jam ((adv_jams (p := [quoteMark single]) rfl rfl hv).bind ?_)
  rintro _ rfl
  refine (flowLazyLoop_jams hv).bind ?_
  rintro c ⟨h1, p, h2⟩
  simp only at h2
  have hv' : validUtf8 (quoteMark single :: t) = true := by rw [validUtf8_cons (by cases single <;> decide)]; exact hv
  subst h2
  refine (slice_jams (p := []) (q := quoteMark single :: p) (t := c.buf) rfl rfl ?_ hv' h1).bind fun _ _ => .ok h1
  simp; omega

end Yary
