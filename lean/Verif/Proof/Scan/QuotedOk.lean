import Verif.Proof.Scan.Quoted
import Verif.Proof.Scan.Since

/-! # Quoted scalars: the scanner reads all of them, if they are ASCII -/

namespace Yary

open Spec

variable {opts : SFlags} {single : Bool} {c : Cur} {r : Str}

/-- The text does not start in the middle of a character. -/
def HeadOk (r : Str) : Prop := ∀ b t, r = b :: t → b < 0x80 ∨ 0xC0 ≤ b

/-- ASCII text, up to `r`. -/
structure Around (s r : Str) : Prop where
  ascii : ∃ p, s = p ++ r ∧ Ascii p
  head : HeadOk r

theorem Around.boundary {s : Str} (h : Around s r) {n : Nat} (hn : n + r.length ≤ s.length) : isBoundary s n = true := by
  obtain ⟨⟨p, rfl, hp⟩, hr⟩ := h
  have hn : n ≤ p.length := by simp at hn; omega
  unfold isBoundary
  simp only [Bool.or_eq_true, beq_iff_eq]
  right
  rcases Nat.lt_or_ge n p.length with hlt | hge
  · rw [List.getElem?_append_left hlt, List.getElem?_eq_getElem hlt]
    have := hp _ (List.getElem_mem hlt)
    simp only [Bool.or_eq_true, decide_eq_true_eq]
    exact .inl this
  · have : n = p.length := by omega
    subst this
    cases r with
    | nil => simp
    | cons b t =>
      have := hr b t rfl
      simpa using this

theorem Around.suffix {s t p : Str} (h : Around s r) (hs : s = p ++ t) (hl : r.length ≤ t.length) : Around t r := by
  obtain ⟨⟨q, rfl, hq⟩, hr⟩ := h
  have h1 : p.length ≤ q.length := by
    have := congrArg List.length hs
    simp at this; omega
  refine ⟨⟨q.drop p.length, ?_, hq.drop _⟩, hr⟩
  have := congrArg (List.drop p.length) hs
  rw [List.drop_left, List.drop_append_of_le_length h1] at this
  exact this.symm

/-- A cursor within the scalar. -/
structure Inside (c : Cur) (r : Str) (cur : Cur) : Prop where
  reads : Reads c cur
  past : cur.buf.length < c.buf.length
  long : r.length ≤ cur.buf.length

theorem Inside.around {cur : Cur} (h : Inside c r cur) (hA : Around c.buf r) : Around cur.buf r := by
  obtain ⟨p, hp⟩ := h.reads.suffix
  exact hA.suffix hp h.long

/-- Moving on within the scalar. -/
theorem Inside.adv {cur : Cur} (h : Inside c r cur) (hA : Around c.buf r) {p t : Str} (hb : cur.buf = p ++ t)
    (hl : r.length ≤ t.length) (hr : Reads cur ⟨t, cur.stats.update p.length 0 p.length⟩) :
    ∃ cur', cur.adv p.length = .ok cur' ∧ cur'.buf = t ∧ Inside c r cur' := by
  refine ⟨⟨t, cur.stats.update p.length 0 p.length⟩, ?_, rfl, h.reads.trans hr, ?_, hl⟩
  · unfold Cur.adv
    rw [if_pos ((h.around hA).boundary (by rw [hb]; simp; omega)), hb, List.drop_left]
  · have := h.past
    rw [hb] at this
    simp at this ⊢
    omega

theorem Inside.noBorrow {st : FlowSt} (h : Inside c r st.cur) (hA : Around c.buf r) :
    ∃ sc, st.noBorrow c.buf = .ok { st with scratch := sc, canBorrow := false } := by
  unfold FlowSt.noBorrow
  split
  · have h1 := h.past
    have h2 := h.long
    have h3 : slice (ε := ScanError) c.buf 1 (c.buf.length - st.cur.buf.length) =
        .ok ((c.buf.drop 1).take (c.buf.length - st.cur.buf.length - 1)) := by
      unfold slice
      rw [if_pos]
      have e1 := hA.boundary (n := 1) (by omega)
      have e2 := hA.boundary (n := c.buf.length - st.cur.buf.length) (by omega)
      simp only [e1, e2, Bool.and_true, decide_eq_true_eq]
      omega
    rw [h3]
    exact ⟨_, rfl⟩
  · rename_i hb
    exact ⟨st.scratch, by rw [← (by simpa using hb : st.canBorrow = false)]⟩

theorem Spec.Quoted.suffix {s v : Str} (h : Quoted single s v r) : ∃ p, s = p ++ r ∧ p ≠ [] := by
  induction h with
  | close => exact ⟨[_], rfl, by simp⟩
  | char _ _ _ _ ih => obtain ⟨p, rfl, -⟩ := ih; exact ⟨_ :: p, rfl, by simp⟩
  | blank _ _ _ ih => obtain ⟨p, rfl, -⟩ := ih; exact ⟨_ :: p, rfl, by simp⟩
  | fold hs _ _ ih =>
    obtain ⟨p, rfl, hp⟩ := ih
    obtain ⟨q, hq⟩ := hs.suffix
    exact ⟨q ++ p, by rw [hq, List.append_assoc], by simp [hp]⟩
  | quote _ _ ih => obtain ⟨p, rfl, -⟩ := ih; exact ⟨_ :: _ :: p, rfl, by simp⟩
  | @escape e _ _ _ _ _ _ _ ih => obtain ⟨p, rfl, -⟩ := ih; exact ⟨0x5C :: (e ++ p), by simp, by simp⟩
  | join _ _ hs _ _ ih =>
    obtain ⟨p, rfl, hp⟩ := ih
    obtain ⟨q, hq⟩ := hs.suffix
    exact ⟨0x5C :: (q ++ p), by rw [hq]; simp, by simp⟩

theorem Spec.Quoted.length {s v : Str} (h : Quoted single s v r) : r.length < s.length := by
  obtain ⟨p, rfl, hp⟩ := h.suffix
  have := List.length_pos_iff.2 hp
  simp; omega

theorem isWhiteSpaceZ_blank {b : Byte} {t : Str} (h : b = 0x20 ∨ b = 0x09) : isWhiteSpaceZ (b :: t) = true := by
  rcases h with rfl | rfl <;> simp [isWhiteSpaceZ, isBlank, startsWith]

theorem Spec.Skips.white {s t : Str} {n : Nat} (h : Skips false s (n + 1) t) : isWhiteSpaceZ s = true := by
  rcases h.succ_cases with h | ⟨b, u, rfl, hb⟩
  · simp [isWhiteSpaceZ, atBreak_iff.1 h]
  · exact isWhiteSpaceZ_blank hb

theorem Spec.Skips.shorter {s t : Str} {n : Nat} (h : Skips false s (n + 1) t) : t.length < s.length := by
  generalize hm : n + 1 = m at h
  induction h generalizing n with
  | done => cases hm
  | @blank b u t m hb h ih =>
    have := ih hm
    simp; omega
  | @line w u t m hw h ih =>
    obtain ⟨x, y, rfl, -⟩ := before_head hw
    obtain ⟨p, hp⟩ := h.suffix
    rw [hp]; simp; omega
  | comment h => cases h

/-- Where a word ends, and what is left of the value. -/
inductive WordEnd (single : Bool) (r : Str) : Bool → FlowSt → Str → Prop where
  | close {st : FlowSt} (h : st.cur.buf = quoteMark single :: r) : WordEnd single r true st []
  | white {st : FlowSt} {v : Str} (he : st.escapedBreak = none) (hw : isWhiteSpaceZ st.cur.buf = true)
      (hq : Quoted single st.cur.buf v r) : WordEnd single r false st v
  | escaped {st : FlowSt} {v : Str} (he : st.escapedBreak = some .Start) (hb : isBreak st.cur.buf = true) (hs : single = false)
      (hq : Quoted single (0x5C :: st.cur.buf) v r) : WordEnd single r false st v

theorem escape_noBrk {e t : Str} {ch : Char} (h : Escape e ch) : ∀ b ∈ (0x5C :: e : Str), NoBrk b := by
  have h1 := flowUnescape_ok (opts := {}) rfl h (t := t)
  have h2 := (flowUnescape_sat (P := True) (opts := {})).of_ok h1
  have := h2.2.2.1
  simpa using this

theorem flowWord_ok (hx : opts.extendable = false) (hA : Around c.buf r) {fuel : Nat} {st : FlowSt} {v v0 : Str}
    (hin : Inside c r st.cur) (hq : Quoted single st.cur.buf v r) (hi : FlowVal c st v0) (he : st.escapedBreak = none)
    (hf : st.cur.buf.length < fuel) :
    ∃ done st' w v', flowWord opts c.buf single fuel st = .ok (done, st') ∧ Inside c r st'.cur ∧
      st'.cur.buf.length ≤ st.cur.buf.length ∧ WordEnd single r done st' v' ∧ FlowVal c st' (v0 ++ w) ∧ v = w ++ v' := by
  induction fuel generalizing st v v0 with
  | zero => omega
  | succ fuel ih =>
    -- going on
    have next : ∀ (st1 : FlowSt) x v', Inside c r st1.cur → Quoted single st1.cur.buf v' r → FlowVal c st1 (v0 ++ x) → st1.escapedBreak = none →
        st1.cur.buf.length < st.cur.buf.length → v = x ++ v' → ∃ done st' w v', flowWord opts c.buf single fuel st1 = .ok (done, st') ∧
          Inside c r st'.cur ∧ st'.cur.buf.length ≤ st.cur.buf.length ∧ WordEnd single r done st' v' ∧ FlowVal c st' (v0 ++ w) ∧ v = w ++ v' := by
      intro st1 x v' h1 h2 h3 h4 h5 h6
      obtain ⟨done, st', w, v'', g1, g2, g3, g4, g5, g6⟩ := ih h1 h2 h3 h4 (by omega)
      exact ⟨done, st', x ++ w, v'', g1, g2, by omega, g4, by simpa using g5, by rw [h6, g6, List.append_assoc]⟩
    rw [flowWord]
    simp only [cache_whole opts hx, Out.ok_bind]
    have hq0 := hq
    generalize hs : st.cur.buf = s at hq
    have hquote : ∀ t, isWhiteSpaceZ (quoteMark single :: t) = false := by
      intro t; cases single <;> simp [quoteMark, isWhiteSpaceZ, isBlank, isBreak, startsWith]
    have h5 : ∀ t, isWhiteSpaceZ (0x5C :: t) = false := by
      intro t; simp [isWhiteSpaceZ, isBlank, isBreak, startsWith]
    cases hq with
    | close h =>
      rw [if_neg (by rw [hquote]; simp), if_neg, if_pos]
      · exact ⟨true, st, [], [], rfl, hin, by rw [hs]; exact Nat.le_refl _, .close hs, by simpa using hi, rfl⟩
      · cases single <;> simp [quoteMark, startsWith]
      · cases single with
        | false => simp
        | true =>
          cases r with
          | nil => simp [quoteMark]
          | cons b t =>
            have := h rfl
            simp [quoteMark]
            exact fun h => this t (by rw [← h])
    | @char b t v _ hb hqm he5 h =>
      have hnb : isBreak (b :: t) = false := not_break.2 hb.2.2
      rw [if_neg, if_neg, if_neg, if_neg, if_neg]
      · have hlen := h.length
        obtain ⟨cur', h1, h2, h3⟩ := hin.adv hA (p := [b]) (t := t) (by simpa using hs) (by omega)
          (by have := Reads.one (m := st.cur.stats) hnb; rw [← hs] at this; exact this)
        obtain ⟨st1, hpush, hcur, hesc⟩ : ∃ st1, st.push = .ok st1 ∧ st1.cur = cur' ∧ st1.escapedBreak = st.escapedBreak := by
          unfold FlowSt.push
          rw [show st.cur.adv 1 = _ from h1]
          exact ⟨_, rfl, rfl, rfl⟩
        have hp := hi.push hs _ hpush
        rw [← hs, hpush]
        simp only [Out.ok_bind]
        exact next st1 [b] v (hcur ▸ h3) (by rw [hcur, h2]; exact h) hp.1 (hesc.trans he) (by simp [hcur, h2, hs]) rfl
      · cases single with
        | true => simp
        | false => simp [startsWith]; exact he5 rfl
      · cases single with
        | true => simp
        | false => simp [startsWith]; exact fun h => absurd h (he5 rfl)
      · cases single <;> simp [startsWith, quoteMark] at hqm ⊢ <;> exact hqm
      · cases single with
        | false => simp
        | true => simp [quoteMark] at hqm ⊢; exact fun h => absurd h.symm hqm
      · simp [isWhiteSpaceZ, isBlank, startsWith, hnb, hb.1, hb.2.1]
    | blank hb hk h =>
      rw [if_pos (isWhiteSpaceZ_blank hb)]
      exact ⟨false, st, [], _, rfl, hin, by rw [hs]; exact Nat.le_refl _, .white he (by rw [hs]; exact isWhiteSpaceZ_blank hb) hq0, by simpa using hi, rfl⟩
    | fold hk _ h =>
      rw [if_pos hk.white]
      exact ⟨false, st, [], _, rfl, hin, by rw [hs]; exact Nat.le_refl _, .white he (by rw [hs]; exact hk.white) hq0, by simpa using hi, rfl⟩
    | @quote t v _ hsi h =>
      subst hsi
      rw [if_neg (by rw [show (0x27 : Byte) = quoteMark true from rfl, hquote]; simp), if_pos (by simp)]
      obtain ⟨sc, h1⟩ := hin.noBorrow hA
      obtain rfl : sc = v0 := by simpa using congrArg FlowSt.scratch (hi.noBorrow _ h1)
      rw [h1]
      have hlen := h.length
      obtain ⟨cur', h1, h2, h3⟩ := hin.adv hA (p := [0x27, 0x27]) (t := t) (by simpa using hs) (by omega)
        (by have := Reads.run (p := [0x27, 0x27]) (t := t) (m := st.cur.stats) (by decide); rw [show [0x27, 0x27] ++ t = _ from hs.symm] at this; exact this)
      simp only [Out.ok_bind]
      rw [show st.cur.adv 2 = _ from h1]
      simp only [Out.ok_bind]
      rw [← hs]
      exact next { st with cur := cur', scratch := _, canBorrow := false } [0x27] v h3 (h2 ▸ h) ⟨fun h => (by cases h), fun _ => rfl⟩ he (by simp [h2, hs]; omega) rfl
    | @escape e t v _ ch hsi hec h =>
      subst hsi
      obtain ⟨b, d, rfl, hnb⟩ := escape_head hec
      rw [if_neg (by rw [h5]; simp), if_neg (by simp), if_neg (by simp [startsWith]), if_neg (by simp [hnb.isBreak]),
        if_pos (by simp [startsWith])]
      obtain ⟨sc, h1⟩ := hin.noBorrow hA
      obtain rfl : sc = v0 := by simpa using congrArg FlowSt.scratch (hi.noBorrow _ h1)
      rw [h1]
      simp only [Out.ok_bind, hs]
      rw [flowUnescape_ok hx hec]
      have hlen := h.length
      obtain ⟨cur', h1, h2, h3⟩ := hin.adv hA (p := 0x5C :: b :: d) (t := t) (by simpa using hs) (by omega)
        (by have := Reads.run (p := 0x5C :: b :: d) (t := t) (m := st.cur.stats) (escape_noBrk (t := t) hec); rw [show 0x5C :: b :: d ++ t = _ from hs.symm] at this; exact this)
      simp only [Out.ok_bind]
      rw [show st.cur.adv ((b :: d).length + 1) = _ from h1]
      simp only [Out.ok_bind]
      rw [← hs]
      exact next { st with cur := cur', scratch := _, canBorrow := false } (utf8Char ch) v h3 (h2 ▸ h) ⟨fun h => (by cases h), fun _ => rfl⟩ he (by simp [hs, h2]; omega) rfl
    | @join s t v _ n hsi hb hk hmk h =>
      subst hsi
      rw [if_neg (by rw [h5]; simp), if_neg (by simp), if_neg (by simp [startsWith]),
        if_pos (by simpa [startsWith] using atBreak_iff.1 hb)]
      obtain ⟨sc, h1⟩ := hin.noBorrow hA
      obtain rfl : sc = v0 := by simpa using congrArg FlowSt.scratch (hi.noBorrow _ h1)
      rw [h1]
      have hlen := h.length
      obtain ⟨q, hq⟩ := hk.suffix
      have hlen2 := congrArg List.length hq
      simp only [List.length_append] at hlen2
      obtain ⟨cur', h1, h2, h3⟩ := hin.adv hA (p := [0x5C]) (t := s) (by simpa using hs) (by omega)
        (by have := Reads.run (p := [0x5C]) (t := s) (m := st.cur.stats) (by decide); rw [show [0x5C] ++ s = _ from hs.symm] at this; exact this)
      simp only [Out.ok_bind]
      rw [show st.cur.adv 1 = _ from h1]
      simp only [Out.ok_bind]
      cases fuel with
      | zero => rw [hs] at hf; simp at hf
      | succ fuel =>
        rw [flowWord, if_pos (by simp [isWhiteSpaceZ, h2, atBreak_iff.1 hb])]
        refine ⟨false, _, [], _, rfl, h3, by simp [h2], .escaped rfl (by simp [h2, atBreak_iff.1 hb]) rfl (v := List.replicate n 0x0A ++ v) ?_, ⟨fun h => (by cases h), fun _ => by simp⟩, rfl⟩
        simp only [h2]
        exact .join rfl hb hk hmk h

/-- White space within the scalar is read. -/
theorem flowSpace_ok (hx : opts.extendable = false) (hA : Around c.buf r) {fuel : Nat} {st : FlowSt} {n : Nat} {t : Str}
    (hin : Inside c r st.cur) (hk : Skips false st.cur.buf n t) (hl : r.length ≤ t.length) (hf : st.cur.buf.length < fuel) :
    ∃ st', flowSpace opts c.buf fuel st = .ok st' ∧ Inside c r st'.cur ∧ st'.cur.buf = t := by
  induction fuel generalizing st n with
  | zero => omega
  | succ fuel ih =>
    rw [flowSpace]
    simp only [cache_whole opts hx, Out.ok_bind]
    generalize hs : st.cur.buf = s at hk
    cases hk with
    | done h1 h2 h3 h4 =>
      rw [if_neg (by rw [not_blank.2 ⟨h1, h2⟩]; simp), if_neg (by rw [not_break.2 h3]; simp)]
      exact ⟨st, rfl, hin, hs⟩
    | @blank b u _ _ hb h =>
      have hbl : isBlank (b :: u) = true := isBlank_iff.2 ⟨b, u, rfl, hb⟩
      rw [if_pos hbl]
      have hlu : r.length ≤ u.length := by
        obtain ⟨p, hp⟩ := h.suffix
        rw [hp]; simp; omega
      obtain ⟨cur', h1, h2, h3⟩ := hin.adv hA (p := [b]) (t := u) (by simpa using hs) hlu
        (by have := Reads.one (m := st.cur.stats) (isBlank_break hbl); rw [← hs] at this; exact this)
      unfold FlowSt.push
      rw [show st.cur.adv 1 = _ from h1]
      simp only [Out.ok_bind]
      exact ih (st := { st with cur := cur', scratch := _, whitespace := _ }) h3 (h2 ▸ h) (by simp [h2]; rw [hs] at hf; simp at hf; omega)
    | @line w u _ _ hw h =>
      have hbr := atBreak_iff.1 (before_at hw)
      rw [if_neg (by intro hbl; rw [isBlank_break hbl] at hbr; cases hbr), if_pos hbr]
      obtain ⟨sc, h1⟩ := hin.noBorrow hA
      rw [h1]
      have hlu : r.length ≤ u.length := by
        obtain ⟨p, hp⟩ := h.suffix
        rw [hp]; simp; omega
      have hln : st.cur.line = .ok ⟨u, st.cur.stats.update w.length 1 0⟩ := by
        unfold Cur.line
        rw [hs, breakLen_before hw, if_pos, List.drop_left]
        have := (hin.around hA).boundary (n := w.length) (by rw [hs]; simp; omega)
        rwa [hs] at this
      simp only [Out.ok_bind, hln]
      have hrd : Reads st.cur ⟨u, st.cur.stats.update w.length 1 0⟩ := by
        have := Reads.break_ (c := st.cur) (by rw [hs]; exact hbr)
        rwa [hs, breakLen_before hw, List.drop_left] at this
      have hin' : Inside c r ⟨u, st.cur.stats.update w.length 1 0⟩ := by
        refine ⟨hin.reads.trans hrd, ?_, hlu⟩
        have := hin.past
        rw [hs] at this
        simp at this ⊢; omega
      have hw0 : 0 < w.length := by
        obtain ⟨x, y, rfl, -⟩ := before_head hw
        simp
      split
      · exact ih (st := { st with cur := _, scratch := sc, canBorrow := false, whitespace := _, escapedBreak := _, lines := _ }) hin' h
          (by simp; rw [hs] at hf; simp at hf; omega)
      · exact ih (st := { st with cur := _, scratch := sc, canBorrow := false, lines := _ }) hin' h
          (by simp; rw [hs] at hf; simp at hf; omega)
    | comment h => cases h

theorem flowJoin_ok (hA : Around c.buf r) {st : FlowSt} {v : Str} (hin : Inside c r st.cur) (hi : FlowVal c st v)
    (hw : st.whitespace ≤ v.length) : ∃ st', flowJoin c.buf st = .ok st' ∧ st'.cur = st.cur := by
  obtain ⟨sc, h1⟩ := hin.noBorrow hA
  have h2 : sc = v := by
    have := hi.noBorrow _ h1
    simpa using congrArg FlowSt.scratch this
  subst h2
  unfold flowJoin
  split
  · exact ⟨st, rfl, rfl⟩
  · rw [h1]
    simp only [Out.ok_bind, truncEnd, hw, ↓reduceIte]
    exact ⟨_, rfl, rfl⟩
  · rw [h1]
    simp only [Out.ok_bind, truncEnd, hw, ↓reduceIte]
    exact ⟨_, rfl, rfl⟩

/-- The column is zero only right after a line break. -/
theorem Reads.column_zero {a b : Cur} (h : Reads a b) (h0 : b.stats.column = 0) :
    (a.stats.column = 0 ∧ a.buf = b.buf) ∨ ∃ p w, a.buf = p ++ w ++ b.buf ∧ BreakBefore w b.buf := by
  induction h with
  | refl c => exact .inl ⟨h0, rfl⟩
  | @byte x t m c' hb _ ih =>
    rcases ih h0 with ⟨h1, -⟩ | ⟨p, w, h1, h2⟩
    · simp [MStats.update] at h1
    · simp only at h1
      exact .inr ⟨x :: p, w, by simp [h1], h2⟩
  | @line c c' hb _ ih =>
    obtain ⟨w, t, e1, e2, e3⟩ := break_split hb
    rcases ih h0 with ⟨-, h1⟩ | ⟨p, w', h1, h2⟩
    · simp only [e3] at h1
      subst h1
      exact .inr ⟨[], w, by simpa using e1, e2⟩
    · simp only [e3] at h1
      exact .inr ⟨w ++ p, w', by rw [e1, h1]; simp, h2⟩

/-- The blanks before what is no white space. -/
theorem Spec.Quoted.skip {t u v : Str} (hk : Skips false t 0 u) (hq : Quoted single t v r) :
    ∃ bl v', t = bl ++ u ∧ v = bl ++ v' ∧ Quoted single u v' r := by
  generalize hz : (0 : Nat) = z at hk
  induction hk generalizing v with
  | done => exact ⟨[], v, rfl, rfl, hq⟩
  | @blank x y _ _ hx h ih =>
    generalize hs : x :: y = s at hq
    cases hq with
    | close =>
      simp only [List.cons.injEq] at hs
      rw [hs.1] at hx
      cases single <;> simp [quoteMark] at hx
    | char hb =>
      simp only [List.cons.injEq] at hs
      obtain ⟨rfl, rfl⟩ := hs
      rcases hx with rfl | rfl
      · exact absurd rfl hb.1
      · exact absurd rfl hb.2.1
    | blank _ _ hq =>
      simp only [List.cons.injEq] at hs
      obtain ⟨rfl, rfl⟩ := hs
      obtain ⟨bl, v', h1, h2, h3⟩ := ih hq hz
      exact ⟨x :: bl, v', by rw [h1]; rfl, by rw [h2]; rfl, h3⟩
    | fold hk' _ _ =>
      subst hs hz
      have := (hk'.unique (.blank hx h)).1
      omega
    | quote => simp only [List.cons.injEq] at hs; rw [hs.1] at hx; exact absurd hx (by decide)
    | escape => simp only [List.cons.injEq] at hs; rw [hs.1] at hx; exact absurd hx (by decide)
    | join => simp only [List.cons.injEq] at hs; rw [hs.1] at hx; exact absurd hx (by decide)
  | line => cases hz
  | comment h => cases h

theorem flowLoop_ok (hx : opts.extendable = false) (hA : Around c.buf r) {fuel : Nat}
    {st : FlowSt} {v v0 : Str} (hin : Inside c r st.cur) (hq : Quoted single st.cur.buf v r) (hi : FlowVal c st v0)
    (hm : st.cur.stats.column = 0 → ¬ AtMarker st.cur.buf) (hf : st.cur.buf.length < fuel) :
    ∃ st', flowLoop opts c.buf single fuel st = .ok st' ∧ Inside c r st'.cur ∧ FlowVal c st' (v0 ++ v) ∧
      st'.cur.buf = quoteMark single :: r := by
  induction fuel generalizing st v v0 with
  | zero => omega
  | succ fuel ih =>
    rw [flowLoop]
    simp only [cache_whole opts hx, Out.ok_bind]
    have hlen := hq.length
    rw [if_neg, if_neg]
    · obtain ⟨done, st1, w, v1, h1, h2, h3, h4, f1, rfl⟩ := flowWord_ok (st := { st with escapedBreak := none }) (v0 := v0) hx hA hin hq ⟨hi.borrow, hi.copy⟩ rfl
        (fuel := c.buf.length + 1) (by have := hin.past; simp only; omega)
      simp only at h3
      rw [h1]
      simp only [Out.ok_bind]
      have white : ∀ n t x v', Skips false st1.cur.buf n t → Quoted single t v' r → t.length < st1.cur.buf.length →
          (st1.escapedBreak = some .Start → isBreak st1.cur.buf = true) →
          (n = 0 → st1.cur.buf = x ++ t) → (n ≠ 0 → ¬ Marked st1.cur.buf t) → (∀ k, n = k + 1 → x = if st1.escapedBreak.isNone then folded k else List.replicate k 0x0A) →
          ∃ st', (do
            let st ← flowSpace opts c.buf (c.buf.length + 1) { st1 with whitespace := 0, lines := 0 }
            let st ← flowJoin c.buf st
            flowLoop opts c.buf single fuel st) = .ok st' ∧ Inside c r st'.cur ∧ FlowVal c st' (v0 ++ (w ++ (x ++ v'))) ∧
              st'.cur.buf = quoteMark single :: r := by
        intro n t x v' hk hqt hlt hes hx0 hmk hx1
        have hl := hqt.length
        obtain ⟨st2, g1, g2, g3⟩ := flowSpace_ok (st := { st1 with whitespace := 0, lines := 0 }) hx hA h2 hk (by omega)
          (fuel := c.buf.length + 1) (by have := h2.past; simp only; omega)
        rw [g1]
        simp only [Out.ok_bind]
        have hpar2 := flowSpace_par (st := { st1 with whitespace := 0, lines := 0 }) (v0 := v0 ++ w) (bl := []) h2.reads.suffix
          ⟨by simpa using f1.borrow, by simpa using f1.copy⟩ rfl (by simp) (fun h => ⟨rfl, hes h⟩) _ g1
        obtain ⟨n', bl, m1, m2, g4, g5, m3, m4, -⟩ := hpar2
        simp only at m1 m4
        obtain rfl : n' = n := (m1.unique hk).1
        simp only [Nat.zero_add] at m2
        obtain ⟨st3, k1, k2⟩ := flowJoin_ok hA g2 g4 (by simp; omega)
        rw [k1]
        simp only [Out.ok_bind]
        obtain ⟨l1, l2, l3⟩ := flowJoin_par g4 g5 _ k1
        have hval : FlowVal c st3 (v0 ++ w ++ x) := by
          cases n' with
          | zero =>
            have := l2 m2
            obtain ⟨b2, rfl, -, h6⟩ := m3 rfl
            simp only [g3, hx0 rfl] at h6
            rw [List.append_cancel_right h6]
            simpa using this
          | succ k =>
            have := l3 k m2
            rwa [m4, ← hx1 k rfl] at this
        have := ih (by rw [k2]; exact g2) (v := v') (by rw [k2, g3]; exact hqt) hval ?_ (by rw [k2, g3]; omega)
        · simpa using this
        · rw [k2, g3]
          intro h0 hat
          have hlast : ∃ p b, st1.cur.buf = p ++ b :: t ∧ b ≠ 0x20 ∧ b ≠ 0x09 := by
            rcases g2.reads.column_zero h0 with ⟨-, h⟩ | ⟨p, w, h, hw⟩
            · have := g2.past
              rw [h] at this
              omega
            · rw [g3] at h hw
              obtain ⟨w', b, rfl, h20, h09⟩ : ∃ w' b, w = w' ++ [b] ∧ b ≠ 0x20 ∧ b ≠ 0x09 := by
                have := hw.1
                simp only [lineBreaks, List.mem_cons, List.not_mem_nil, or_false] at this
                rcases this with rfl | rfl | rfl | rfl | rfl | rfl
                · exact ⟨[0x0D], 0x0A, rfl, by decide, by decide⟩
                · exact ⟨[], 0x0D, rfl, by decide, by decide⟩
                · exact ⟨[], 0x0A, rfl, by decide, by decide⟩
                · exact ⟨[0xC2], 0x85, rfl, by decide, by decide⟩
                · exact ⟨[0xE2, 0x80], 0xA8, rfl, by decide, by decide⟩
                · exact ⟨[0xE2, 0x80], 0xA9, rfl, by decide, by decide⟩
              obtain ⟨q, hq1⟩ := h2.reads.suffix
              obtain ⟨q', hq2⟩ := hk.suffix
              rw [hq1, hq2] at h
              have h : q ++ q' ++ t = (p ++ w' ++ [b]) ++ t := by simpa using h
              have h := List.append_cancel_right h
              have hne : q' ≠ [] := by rintro rfl; rw [hq2] at hlt; simp at hlt
              rcases List.eq_nil_or_concat q' with hq' | ⟨q2, b', hq'⟩
              · exact absurd hq' hne
              · rw [List.concat_eq_append] at hq'
                rw [hq', ← List.append_assoc] at h
                obtain ⟨-, hbb⟩ := List.append_inj' h rfl
                simp only [List.cons.injEq, and_true] at hbb
                exact ⟨q2, b, by rw [hq2, hq', hbb]; simp, h20, h09⟩
          cases n' with
          | zero =>
            obtain ⟨p, b, hb1, hb2, hb3⟩ := hlast
            obtain ⟨b2, -, hbl, h6⟩ := m3 rfl
            simp only [g3] at h6
            rw [h6] at hb1
            have : b2 = p ++ [b] := List.append_cancel_right (bs := t) (by rw [hb1]; simp)
            rcases hbl b (by rw [this]; simp) with h | h
            · exact hb2 h
            · exact hb3 h
          | succ k => exact hmk (by simp) ⟨hat, hlast⟩
      cases h4 with
      | close h =>
        simp only [↓reduceIte]
        exact ⟨st1, rfl, h2, by simpa using f1, h⟩
      | white he hw hq' =>
        simp only [Bool.false_eq_true, ↓reduceIte]
        have hes : st1.escapedBreak = some .Start → isBreak st1.cur.buf = true := by rw [he]; intro h; cases h
        have hq0 := hq'
        generalize hs : st1.cur.buf = s at hq' hw
        cases hq' with
        | close => cases single <;> simp [quoteMark, isWhiteSpaceZ, isBlank, isBreak, startsWith] at hw
        | @char b t _ _ hb =>
          have hnb : isBreak (b :: t) = false := not_break.2 hb.2.2
          simp [isWhiteSpaceZ, isBlank, startsWith, hnb, hb.1, hb.2.1] at hw
        | @blank b t u v'' _ hb hk hq'' =>
          rw [hs] at hq0
          obtain ⟨bl, v3, e1, e2, hq3⟩ := hq0.skip (.blank hb hk)
          rw [e2]
          refine white 0 u bl v3 (by rw [hs]; exact .blank hb hk) hq3 ?_ hes (fun _ => by rw [hs, e1]) (fun h => absurd rfl h) (fun k h => by cases h)
          rw [hs]
          obtain ⟨p, hp⟩ := hk.suffix
          rw [hp]; simp; omega
        | @fold _ t v'' _ n hk hmk hq'' =>
          refine white (n + 1) t _ v'' (by rw [hs]; exact hk) hq'' (by rw [hs]; exact hk.shorter) hes (fun h => by cases h) (fun _ => by rw [hs]; exact hmk) ?_
          intro k h
          obtain rfl : n = k := by omega
          simp [he]
        | quote => simp [isWhiteSpaceZ, isBlank, isBreak, startsWith] at hw
        | escape => simp [isWhiteSpaceZ, isBlank, isBreak, startsWith] at hw
        | join => simp [isWhiteSpaceZ, isBlank, isBreak, startsWith] at hw
      | escaped he hb hsi hq' =>
        simp only [Bool.false_eq_true, ↓reduceIte]
        subst hsi
        generalize hs : (0x5C : Byte) :: st1.cur.buf = s at hq'
        cases hq' with
        | close => simp [quoteMark] at hs
        | char _ _ he' => simp only [List.cons.injEq] at hs; exact absurd hs.1.symm (he' rfl)
        | blank hb => simp only [List.cons.injEq] at hs; rw [← hs.1] at hb; exact absurd hb (by decide)
        | fold hk =>
          subst hs
          have := hk.white
          simp [isWhiteSpaceZ, isBlank, isBreak, startsWith] at this
        | quote hs' => cases hs'
        | escape _ he' h' =>
          simp only [List.cons.injEq, true_and] at hs
          obtain ⟨b, d, rfl, h1⟩ := escape_head he'
          rw [hs] at hb
          simp [h1.isBreak] at hb
        | @join _ t v' _ n _ _ hk hmk hq' =>
          simp only [List.cons.injEq, true_and] at hs
          refine white (n + 1) t _ v' (by rw [hs]; exact hk) hq' (by rw [hs]; exact hk.shorter) (fun _ => hb) (fun h => by cases h) (fun _ => by rw [hs]; exact hmk) ?_
          intro k h
          obtain rfl : n = k := by omega
          simp [he]
    · simp only [List.isEmpty_iff]
      intro h
      rw [h] at hlen
      simp at hlen
    · intro h
      obtain ⟨h1, h2⟩ := atMarker_of h
      exact hm h1 h2

theorem valid_both {a b : Str} (h1 : validUtf8 a = true) (h2 : validUtf8 b = true) : validUtf8 (a ++ b) = true := by
  rw [validUtf8_append h1, h2]

/-- ASCII quoted scalars stand for text. -/
theorem Spec.Quoted.valid {s v : Str} (h : Quoted single s v r) (hA : Around s r) : validUtf8 v = true := by
  induction h with
  | close => rfl
  | @char b t v r _ _ _ h ih =>
    have h1 : validUtf8 [b] = true := by
      refine validUtf8_ascii ?_
      obtain ⟨⟨p, hp, hp'⟩, -⟩ := hA
      intro x hx
      simp only [List.mem_cons, List.not_mem_nil, or_false] at hx
      subst hx
      cases p with
      | nil => have := h.length; have := congrArg List.length hp; simp at this; omega
      | cons y p => simp at hp; exact hp' x (by simp [hp.1])
    exact valid_both h1 (ih (hA.suffix (p := [b]) rfl (Nat.le_of_lt h.length)))
  | @blank b t _ v r hb _ h ih =>
    have h1 : validUtf8 [b] = true := by rcases hb with rfl | rfl <;> rfl
    exact valid_both h1 (ih (hA.suffix (p := [b]) rfl (Nat.le_of_lt h.length)))
  | @fold _ _ _ _ n hs _ h ih =>
    obtain ⟨p, hp⟩ := hs.suffix
    refine valid_both (validUtf8_ascii ?_) (ih (hA.suffix hp (Nat.le_of_lt h.length)))
    intro x hx
    unfold folded at hx
    split at hx
    · simp at hx; subst hx; decide
    · rw [List.eq_of_mem_replicate hx]; decide
  | @quote t _ _ _ h ih => exact valid_both (a := [0x27]) rfl (ih (hA.suffix (p := [0x27, 0x27]) rfl (Nat.le_of_lt h.length)))
  | @escape e t v r ch _ _ h ih =>
    refine valid_both (a := utf8Char ch) ((validUtf8_iff _).2 ⟨[ch], by simp [utf8]⟩) (ih (hA.suffix (p := 0x5C :: e) (by simp) (Nat.le_of_lt h.length)))
  | @join _ _ _ _ n _ _ hs _ h ih =>
    obtain ⟨p, hp⟩ := hs.suffix
    refine valid_both (validUtf8_ascii ?_) (ih (hA.suffix (p := 0x5C :: p) (by rw [hp]; rfl) (Nat.le_of_lt h.length)))
    intro x hx
    rw [List.eq_of_mem_replicate hx]; decide

theorem quoteMark_noBrk : NoBrk (quoteMark single) := by cases single <;> decide

/-- Every ASCII quoted scalar is scanned, as what it denotes. -/
theorem scanFlowEager_ok (hx : opts.extendable = false) {t v : Str} {m : MStats} (hq : Quoted single t v r)
    (hA : Around t r) :
    ∃ m', scanFlowEager opts single ⟨quoteMark single :: t, m⟩ = .ok (.Scalar v (flowStyle single), ⟨r, m'⟩) := by
  have hA' : Around (quoteMark single :: t) r := by
    obtain ⟨⟨p, rfl, hp⟩, hr⟩ := hA
    refine ⟨⟨quoteMark single :: p, rfl, ?_⟩, hr⟩
    intro x hx
    rcases List.mem_cons.1 hx with rfl | hx
    · cases single <;> decide
    · exact hp x hx
  have hlen := hq.length
  unfold scanFlowEager
  simp only [cache_whole opts hx, Out.ok_bind]
  have h1 : (⟨quoteMark single :: t, m⟩ : Cur).adv 1 = .ok ⟨t, m.update 1 0 1⟩ := by
    unfold Cur.adv
    rw [if_pos (hA'.boundary (by simp; omega))]
    rfl
  rw [h1]
  simp only [Out.ok_bind]
  have hin : Inside ⟨quoteMark single :: t, m⟩ r ⟨t, m.update 1 0 1⟩ :=
    ⟨Reads.one quoteMark_noBrk.isBreak, by simp, by simp only; omega⟩
  obtain ⟨st, h2, h3, h4, h5⟩ := flowLoop_ok (c := ⟨quoteMark single :: t, m⟩) (st := { cur := ⟨t, m.update 1 0 1⟩ }) (v0 := []) hx hA' hin hq
    ⟨fun _ => ⟨rfl, _, rfl⟩, fun h => (by cases h)⟩ (fun h => by simp [MStats.update] at h) (fuel := (quoteMark single :: t).length + 1) (by simp; omega)
  rw [h2]
  simp only [Out.ok_bind]
  have h6 : flowSlice (quoteMark single :: t) st = .ok v := by
    unfold flowSlice
    simp only [List.nil_append] at h4
    split
    · rename_i h
      obtain ⟨-, q', h4⟩ := h4.borrow h
      simp only at h4
      have : (quoteMark single :: t).length - st.cur.buf.length = v.length + 1 := by rw [h4]; simp; omega
      rw [this]
      unfold slice
      rw [if_pos, h4]
      · simp
      · have e1 := hA'.boundary (n := 1) (by simp; omega)
        have e2 := hA'.boundary (n := v.length + 1) (by rw [h4, h5]; simp; omega)
        simp only [e1, e2, Bool.and_true, decide_eq_true_eq]
        omega
    · rename_i h
      rw [h4.copy (by simpa using h)]
      unfold fromUtf8Unwrap
      rw [if_pos (hq.valid hA)]
  rw [h6]
  simp only [Out.ok_bind]
  obtain ⟨cur', g1, g2, -⟩ := h3.adv hA' (p := [quoteMark single]) (t := r) (by simpa using h5) (by omega)
    (by have := Reads.one (m := st.cur.stats) (NoBrk.isBreak (t := r) (quoteMark_noBrk (single := single))); rw [← h5] at this; exact this)
  rw [show st.cur.adv 1 = _ from g1]
  obtain ⟨b, m'⟩ := cur'
  simp only at g2
  subst g2
  exact ⟨m', rfl⟩

end Yary
