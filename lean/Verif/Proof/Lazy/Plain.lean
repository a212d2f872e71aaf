import Verif.Proof.Lazy.FlowRest

/-! # Plain scalars, scanned alone -/

namespace Yary.Deferred

open Chunk Spec

variable {o o' : SFlags} {t : Str} (hx : o.extendable = false) (hx' : o'.extendable = false) (ht : HeadOk t)

/-- A byte after which what is looked for in a plain scalar does not go on. -/
def Last (b : Byte) : Prop := b ≠ b! '-' ∧ b ≠ b! '.' ∧ b ≠ b! ':'

instance : DecidablePred Last := fun _ => by unfold Last; infer_instance

/-- What is looked for in `s ++ t`, in a plain scalar, can be seen in `s`. -/
def Closed (s t : Str) : Prop := t = [] ∨ ∃ p b, s = p ++ [b] ∧ Last b

theorem Closed.drop {s : Str} {n : Nat} (h : Closed s t) (hn : t = [] ∨ n < s.length) : Closed (s.drop n) t := by
  rcases h with h | ⟨p, b, rfl, hb⟩
  · exact .inl h
  rcases hn with h | hn
  · exact .inl h
  · simp only [List.length_append, List.length_cons, List.length_nil] at hn
    exact .inr ⟨p.drop n, b, List.drop_append_of_le_length (by omega), hb⟩

theorem Closed.append {s : Str} (p : Str) (h : Closed s t) : Closed (p ++ s) t := by
  rcases h with h | ⟨q, b, rfl, hb⟩
  · exact .inl h
  · exact .inr ⟨p ++ q, b, by simp, hb⟩

theorem isWhiteSpaceZ_closed {s : Str} (hv : validUtf8 s = true) (h : Closed s t) : isWhiteSpaceZ (s ++ t) = isWhiteSpaceZ s := by
  rcases h with rfl | ⟨p, b, rfl, hb⟩
  · rw [List.append_nil]
  · exact isWhiteSpaceZ_grow hv (by simp)

theorem plainEnd_closed {s : Str} {block : Bool} (hv : validUtf8 s = true) (h : Closed s t) :
    plainEnd block (s ++ t) = plainEnd block s := by
  rcases h with rfl | ⟨p, b, rfl, hb⟩
  · rw [List.append_nil]
  · have hne : p ++ [b] ≠ [] := by simp
    unfold plainEnd
    rw [flowIndicator_grow hne, startsWith_grow hne]
    congr 1
    cases hs : startsWith (p ++ [b]) b! ':' with
    | false => rfl
    | true =>
      obtain ⟨r, hr⟩ := startsWith_iff.1 hs
      rw [hr] at hv ⊢
      cases r with
      | nil =>
        cases p with
        | nil => injection hr with hr _; exact absurd hr hb.2.2
        | cons x p => injection hr with _ hr; exact absurd (congrArg List.length hr) (by simp)
      | cons y r =>
        simp only [List.cons_append, List.drop_succ_cons, List.drop_zero, Bool.true_and]
        exact isWhiteSpaceZ_grow (valid_tail hv (by decide)) (by simp)

theorem indicator_closed {s : Str} {col : Nat} (hv : validUtf8 s = true) (h : Closed s t) :
    isDocumentIndicator (s ++ t) col = isDocumentIndicator s col := by
  rcases h with rfl | ⟨p, b, rfl, hb⟩
  · rw [List.append_nil]
  unfold isDocumentIndicator
  rw [Bool.and_assoc, Bool.and_assoc]
  congr 1
  generalize hs : p ++ [b] = s at hv
  have hlast : ∀ a, s.getLast? = some a → Last a := by
    intro a ha
    rw [← hs] at ha
    simp at ha
    subst ha; exact hb
  match s with
  | [] => simp at hs
  | [x] =>
    have := hlast x rfl
    unfold Last at this
    cases h1 : startsMarker ([x] ++ t) with
    | false => cases h2 : startsMarker [x] with
      | false => rfl
      | true => obtain ⟨a, r, -, h⟩ := startsMarker_three h2; cases h
    | true =>
      obtain ⟨a, r, ha, h⟩ := startsMarker_three h1
      injection h with h _
      subst h
      rcases ha with rfl | rfl
      · exact absurd rfl this.1
      · exact absurd rfl this.2.1
  | [x, y] =>
    have := hlast y rfl
    unfold Last at this
    cases h1 : startsMarker ([x, y] ++ t) with
    | false => cases h2 : startsMarker [x, y] with
      | false => rfl
      | true => obtain ⟨a, r, -, h⟩ := startsMarker_three h2; cases h
    | true =>
      obtain ⟨a, r, ha, h⟩ := startsMarker_three h1
      injection h with _ h
      injection h with h _
      subst h
      rcases ha with rfl | rfl
      · exact absurd rfl this.1
      · exact absurd rfl this.2.1
  | x :: y :: z :: s =>
    rw [startsMarker_grow (by simp)]
    cases h1 : startsMarker (x :: y :: z :: s) with
    | false => rfl
    | true =>
      obtain ⟨a, r, ha, h⟩ := startsMarker_three h1
      injection h with h0 h
      injection h with h2 h
      injection h with h3 h
      subst h0; subst h2; subst h3
      cases s with
      | nil =>
        have := hlast z rfl
        rcases ha with rfl | rfl
        · exact absurd rfl this.1
        · exact absurd rfl this.2.1
      | cons w s =>
        have ha' : z < 128 := by rcases ha with rfl | rfl <;> decide
        simp only [List.cons_append, List.drop_succ_cons, List.drop_zero, Bool.true_and]
        exact isWhiteSpaceZ_grow (valid_tail (valid_tail (valid_tail hv ha') ha') ha') (by simp)

/-! ## How far the loops read -/

/-- The buffer moved on, and what was read was counted. -/
structure Moves (a b : Cur) : Prop where
  suf : Suf a.buf b.buf
  read : a.stats.read + a.buf.length = b.stats.read + b.buf.length
  valid : validUtf8 a.buf = true → validUtf8 b.buf = true

theorem Moves.refl (a : Cur) : Moves a a := ⟨.refl _, rfl, id⟩

theorem Moves.trans {a b c : Cur} (h : Moves a b) (h' : Moves b c) : Moves a c :=
  ⟨h.suf.trans h'.suf, h.read.trans h'.read, fun hv => h'.valid (h.valid hv)⟩

theorem Moves.adv {a b : Cur} {n : Nat} (h : a.adv n = .ok b) : Moves a b := by
  obtain ⟨rfl, hb⟩ := adv_ok h
  have := boundary_le hb
  exact ⟨.drop _ _, by simp only [MStats.update, List.length_drop]; omega, fun hv => validUtf8_drop hv hb⟩

theorem Moves.line {a b : Cur} (h : a.line = .ok b) : Moves a b := by
  obtain ⟨rfl, hb⟩ := line_ok h
  have := boundary_le hb
  exact ⟨.drop _ _, by simp only [MStats.update, List.length_drop]; omega, fun hv => validUtf8_drop hv hb⟩

theorem plainPush_ok {st x : PlainSt} (h : st.push = .ok x) :
    st.cur.adv 1 = .ok x.cur ∧ x.scalarStats = st.scalarStats ∧ x.outdent = st.outdent ∧ x.lines = st.lines ∧
      x.whitespace = st.whitespace := by
  unfold PlainSt.push at h
  obtain ⟨c, hc, h⟩ := Out.bind_eq_ok.1 h
  injection h with h; subst h
  exact ⟨hc, rfl, rfl, rfl, rfl⟩

theorem plainNoBorrow_ok {base : Str} {st x : PlainSt} (h : st.noBorrow base = .ok x) :
    x.cur = st.cur ∧ x.scalarStats = st.scalarStats ∧ x.outdent = st.outdent ∧ x.lines = st.lines ∧ x.whitespace = st.whitespace := by
  unfold PlainSt.noBorrow at h
  split at h
  · obtain ⟨s, -, h⟩ := Out.bind_eq_ok.1 h
    injection h with h; subst h; exact ⟨rfl, rfl, rfl, rfl, rfl⟩
  · injection h with h; subst h; exact ⟨rfl, rfl, rfl, rfl, rfl⟩

theorem plainJoin_ok {st x : PlainSt} (h : plainJoin st = .ok x) :
    x.cur = st.cur ∧ x.scalarStats = st.scalarStats ∧ x.outdent = st.outdent ∧ (st.lines = 0 → x = st) := by
  unfold plainJoin at h
  split at h
  · injection h with h; subst h; exact ⟨rfl, rfl, rfl, fun _ => rfl⟩
  · rename_i hl
    obtain ⟨s, -, h⟩ := Out.bind_eq_ok.1 h
    injection h with h; subst h; exact ⟨rfl, rfl, rfl, fun h => by rw [hl] at h; cases h⟩
  · rename_i hl
    obtain ⟨s, -, h⟩ := Out.bind_eq_ok.1 h
    injection h with h; subst h; exact ⟨rfl, rfl, rfl, fun h => by rw [hl] at h; cases h⟩

/-- How far the indicator that ends a scalar is skipped. -/
def plainSkip (s : Str) : Nat := if isWhiteSpace (s.drop 1) then 2 else 1

include hx hx' in
theorem plainWord_lazy {block : Bool} {fuel : Nat} {st x : PlainSt} (h : plainWord o' block fuel st = .ok x) :
    Moves st.cur x.cur ∧ x.scalarStats = st.scalarStats ∧ x.outdent = st.outdent ∧ x.lines = st.lines ∧
    (isWhiteSpaceZ st.cur.buf = false → plainEnd block st.cur.buf = false → x.cur.buf.length < st.cur.buf.length) ∧
    ((isWhiteSpaceZ x.cur.buf = true ∧ ∀ fuel' lst, st.cur.buf.length < fuel' → lst.cur = st.cur →
        plainLazyWord o block fuel' lst = .ok (false, { lst with cur := x.cur })) ∨
     (isWhiteSpaceZ x.cur.buf = false ∧ plainEnd block x.cur.buf = true ∧ ∀ fuel' lst, st.cur.buf.length < fuel' → lst.cur = st.cur →
        plainLazyWord o block fuel' lst = .ok (true, { lst with
          cur := ⟨x.cur.buf, x.cur.stats.update (plainSkip x.cur.buf) 0 (plainSkip x.cur.buf)⟩
          scalarStats := x.cur.stats }))) := by
  induction fuel generalizing st with
  | zero => cases h
  | succ fuel ih =>
    rw [plainWord] at h
    by_cases hw : isWhiteSpaceZ st.cur.buf = true
    · rw [if_pos hw] at h
      injection h with h; subst h
      refine ⟨.refl _, rfl, rfl, rfl, (fun h => by rw [hw] at h; cases h), .inl ⟨hw, ?_⟩⟩
      intro fuel' lst hf hl
      obtain ⟨fuel', rfl⟩ : ∃ k, fuel' = k + 1 := ⟨fuel' - 1, by omega⟩
      rw [plainLazyWord, hl, if_pos hw]
      cases lst; simp only at hl; subst hl; rfl
    rw [if_neg hw, cache_whole o' hx', Out.ok_bind] at h
    have hw' : isWhiteSpaceZ st.cur.buf = false := by simpa using hw
    by_cases he : plainEnd block st.cur.buf = true
    · rw [if_pos he] at h
      injection h with h; subst h
      refine ⟨.refl _, rfl, rfl, rfl, (fun _ h => by rw [he] at h; cases h), .inr ⟨hw', he, ?_⟩⟩
      intro fuel' lst hf hl
      obtain ⟨fuel', rfl⟩ : ∃ k, fuel' = k + 1 := ⟨fuel' - 1, by omega⟩
      rw [plainLazyWord, hl, if_neg hw, cache_whole o hx, Out.ok_bind, if_pos he]
      rfl
    rw [if_neg he] at h
    obtain ⟨st1, h1, h⟩ := Out.bind_eq_ok.1 h
    obtain ⟨hc, e1, e2, e3, -⟩ := plainPush_ok h1
    obtain ⟨m, f1, f2, f3, -, hor⟩ := ih h
    have hne : 1 ≤ st.cur.buf.length := by
      rcases Nat.eq_zero_or_pos st.cur.buf.length with h0 | h0
      · rw [List.length_eq_zero_iff.1 h0] at hw; exact absurd rfl hw
      · exact h0
    have hlen : st1.cur.buf.length < st.cur.buf.length := by
      rw [(adv_ok hc).1]; simp only [List.length_drop]; omega
    refine ⟨(Moves.adv hc).trans m, f1.trans e1, f2.trans e2, f3.trans e3, ?_, ?_⟩
    · intro _ _
      have := m.suf.length
      omega
    · rcases hor with ⟨hz, hl⟩ | ⟨hz, hz', hl⟩
      · refine .inl ⟨hz, fun fuel' lst hf hlst => ?_⟩
        obtain ⟨fuel', rfl⟩ : ∃ k, fuel' = k + 1 := ⟨fuel' - 1, by omega⟩
        rw [plainLazyWord, hlst, if_neg hw, cache_whole o hx, Out.ok_bind, if_neg he, hc, Out.ok_bind,
          hl fuel' { lst with cur := st1.cur } (by omega) rfl]
      · refine .inr ⟨hz, hz', fun fuel' lst hf hlst => ?_⟩
        obtain ⟨fuel', rfl⟩ : ∃ k, fuel' = k + 1 := ⟨fuel' - 1, by omega⟩
        rw [plainLazyWord, hlst, if_neg hw, cache_whole o hx, Out.ok_bind, if_neg he, hc, Out.ok_bind,
          hl fuel' { lst with cur := st1.cur } (by omega) rfl]

theorem break_last {s : Str} (h : isBreak s = true) : ∃ p b, s = (p ++ [b]) ++ s.drop (breakLen s) ∧ Last b := by
  unfold isBreak at h
  split at h <;> first | cases h | skip
  · rename_i r
    cases r with
    | nil => exact ⟨[], 0x0D, rfl, by decide⟩
    | cons x r =>
      by_cases hx : x = 0x0A
      · subst hx; exact ⟨[0x0D], 0x0A, rfl, by decide⟩
      · refine ⟨[], 0x0D, ?_, by decide⟩
        have : breakLen (0x0D :: x :: r) = 1 := by
          unfold breakLen; split <;> simp_all
        rw [this]; rfl
  · exact ⟨[], 0x0A, rfl, by decide⟩
  · exact ⟨[0xC2], 0x85, rfl, by decide⟩
  · exact ⟨[0xE2, 0x80], 0xA8, rfl, by decide⟩
  · exact ⟨[0xE2, 0x80], 0xA9, rfl, by decide⟩

include hx hx' in
theorem plainSpace_lazy {base : Str} {fuel : Nat} {st x : PlainSt} (h : plainSpace o' base fuel st = .ok x) :
    Moves st.cur x.cur ∧ x.scalarStats = st.scalarStats ∧ x.outdent = st.outdent ∧
    (∃ w, st.cur.buf = w ++ x.cur.buf ∧ (w = [] ∨ ∃ p b, w = p ++ [b] ∧ Last b)) ∧
    (isWhiteSpace st.cur.buf = true → x.cur.buf.length < st.cur.buf.length) ∧
    (isWhiteSpace st.cur.buf = false → x = st) ∧
    ∀ fuel' lst, st.cur.buf.length < fuel' → lst.cur = st.cur →
        plainLazySpace o fuel' lst = .ok { lst with cur := x.cur } := by
  induction fuel generalizing st with
  | zero => cases h
  | succ fuel ih =>
    rw [plainSpace, cache_whole o' hx', Out.ok_bind] at h
    have last : ∀ {p : Str} {b : Byte} {r : Str}, st.cur.buf = (p ++ [b]) ++ r → Last b →
        (∃ w, r = w ++ x.cur.buf ∧ (w = [] ∨ ∃ p b, w = p ++ [b] ∧ Last b)) →
        ∃ w, st.cur.buf = w ++ x.cur.buf ∧ (w = [] ∨ ∃ p b, w = p ++ [b] ∧ Last b) := by
      rintro p b _ hp hb ⟨w, rfl, hw⟩
      refine ⟨(p ++ [b]) ++ w, by rw [hp]; simp, .inr ?_⟩
      rcases hw with rfl | ⟨q, a, rfl, ha⟩
      · exact ⟨p, b, by simp, hb⟩
      · exact ⟨p ++ [b] ++ q, a, by simp, ha⟩
    by_cases hb : isBlank st.cur.buf = true
    · rw [if_pos hb] at h
      obtain ⟨st1, h1, h⟩ := Out.bind_eq_ok.1 h
      obtain ⟨hc, e1, e2, -, -⟩ := plainPush_ok h1
      obtain ⟨m, f1, f2, hw, -, -, hl⟩ := ih h
      simp only at m f1 f2 hw hl
      have hws : isWhiteSpace st.cur.buf = true := by unfold isWhiteSpace; rw [hb]; rfl
      obtain ⟨b, r, hbs, hb'⟩ := isBlank_iff.1 hb
      have hr : st1.cur.buf = r := by rw [(adv_ok hc).1, hbs]; rfl
      have hlen : st1.cur.buf.length < st.cur.buf.length := by rw [hr, hbs]; simp
      refine ⟨(Moves.adv hc).trans m, f1.trans e1, f2.trans e2, ?_, ?_, ?_, ?_⟩
      · rw [hr] at hw
        exact last (p := []) (b := b) hbs (by rcases hb' with rfl | rfl <;> decide) hw
      · intro _; have := m.suf.length; omega
      · intro h; rw [hws] at h; cases h
      · intro fuel' lst hf hlst
        obtain ⟨fuel', rfl⟩ : ∃ k, fuel' = k + 1 := ⟨fuel' - 1, by omega⟩
        rw [plainLazySpace, cache_whole o hx, Out.ok_bind, hlst, if_pos hb, hc, Out.ok_bind,
          hl fuel' { lst with cur := st1.cur } (by omega) rfl]
    rw [if_neg hb] at h
    by_cases hk : isBreak st.cur.buf = true
    · rw [if_pos hk] at h
      obtain ⟨st1, h1, h⟩ := Out.bind_eq_ok.1 h
      obtain ⟨c, hc, h⟩ := Out.bind_eq_ok.1 h
      obtain ⟨e0, e1, e2, -, -⟩ := plainNoBorrow_ok h1
      rw [e0] at hc
      obtain ⟨m, f1, f2, hw, -, -, hl⟩ := ih h
      simp only at m f1 f2 hw hl
      have hws : isWhiteSpace st.cur.buf = true := by unfold isWhiteSpace; rw [hk, Bool.or_true]
      have hbl := breakLen_pos.2 hk
      have hble := breakLen_le st.cur.buf
      have hce := (line_ok hc).1
      have hlen : c.buf.length < st.cur.buf.length := by rw [hce]; simp only [List.length_drop]; omega
      refine ⟨(Moves.line hc).trans m, f1.trans e1, f2.trans e2, ?_, ?_, ?_, ?_⟩
      · obtain ⟨p, b, hp, hb'⟩ := break_last hk
        rw [hce] at hw
        exact last hp hb' hw
      · intro _; have := m.suf.length; omega
      · intro h; rw [hws] at h; cases h
      · intro fuel' lst hf hlst
        obtain ⟨fuel', rfl⟩ : ∃ k, fuel' = k + 1 := ⟨fuel' - 1, by omega⟩
        rw [plainLazySpace, cache_whole o hx, Out.ok_bind, hlst, if_neg hb, if_pos hk, hc, Out.ok_bind,
          hl fuel' { lst with cur := c } (by omega) rfl]
    rw [if_neg hk] at h
    injection h with h; subst h
    refine ⟨.refl _, rfl, rfl, ⟨[], rfl, .inl rfl⟩, ?_, fun _ => rfl, ?_⟩
    · intro h; unfold isWhiteSpace at h; simp [hb, hk] at h
    · intro fuel' lst hf hlst
      obtain ⟨fuel', rfl⟩ : ∃ k, fuel' = k + 1 := ⟨fuel' - 1, by omega⟩
      rw [plainLazySpace, cache_whole o hx, Out.ok_bind, hlst, if_neg hb, if_neg hk]
      cases lst; simp only at hlst; subst hlst; rfl

/-! ## The same on the text of the scalar -/

include ht in
theorem plainNoBorrow_grow {base : Str} {st x : PlainSt} (h : (PlainSt.grow t st).noBorrow (base ++ t) = .ok x) :
    ∃ st', x = PlainSt.grow t st' ∧ st'.cur = st.cur ∧ st.noBorrow base = .ok st' ∧ st'.lines = st.lines := by
  have hl : (base ++ t).length - (PlainSt.grow t st).cur.buf.length = base.length - st.cur.buf.length := by
    simp only [PlainSt.grow, List.length_append]; omega
  unfold PlainSt.noBorrow at h ⊢
  rw [hl, slice_grow ht (by omega)] at h
  by_cases hb : st.canBorrow = true
  · rw [if_pos hb]
    rw [if_pos (show (PlainSt.grow t st).canBorrow = true from hb)] at h
    obtain ⟨s, hs, h⟩ := Out.bind_eq_ok.1 h
    injection h with h
    subst h
    exact ⟨{ st with scratch := st.scratch ++ s, canBorrow := false }, rfl, rfl, by rw [hs]; rfl, rfl⟩
  · rw [if_neg hb]
    rw [if_neg (show ¬ (PlainSt.grow t st).canBorrow = true from hb)] at h
    injection h with h
    subst h
    exact ⟨st, rfl, rfl, rfl, rfl⟩

include ht in
theorem plainPush_grow {st x : PlainSt} (hn : 1 ≤ st.cur.buf.length) (h : (PlainSt.grow t st).push = .ok x) :
    ∃ st', x = PlainSt.grow t st' ∧ st.push = .ok st' ∧
      st'.cur = ⟨st.cur.buf.drop 1, st.cur.stats.update 1 0 1⟩ := by
  unfold PlainSt.push at h ⊢
  obtain ⟨c, hc, h⟩ := Out.bind_eq_ok.1 h
  obtain ⟨rfl, hs⟩ := adv_grow ht (s := st.cur.buf) (m := st.cur.stats) hn hc
  injection h with h
  subst h
  have hs : st.cur.adv 1 = _ := hs
  rw [hs]
  refine ⟨_, ?_, rfl, rfl⟩
  simp only [PlainSt.grow]
  rw [take_grow hn]
  rfl

theorem plainJoin_grow {st x : PlainSt} (h : plainJoin (PlainSt.grow t st) = .ok x) :
    ∃ st', x = PlainSt.grow t st' ∧ plainJoin st = .ok st' := by
  obtain ⟨cur, ss, scr, cb, od, ws, lines⟩ := st
  match lines, h with
  | 0, h => injection h with h; subst h; exact ⟨_, rfl, rfl⟩
  | 1, h =>
    obtain ⟨s, hs, h⟩ := Out.bind_eq_ok.1 h
    injection h with h; subst h
    refine ⟨⟨cur, ss, s ++ [b! ' '], cb, od, 0, 1⟩, rfl, ?_⟩
    have hs : truncEnd scr ws = .ok s := hs
    unfold plainJoin
    simp only
    rw [hs]; rfl
  | k + 2, h =>
    obtain ⟨s, hs, h⟩ := Out.bind_eq_ok.1 h
    injection h with h; subst h
    refine ⟨⟨cur, ss, s ++ List.replicate (k + 1) 0x0A, cb, od, 0, k + 1⟩, rfl, ?_⟩
    have hs : truncEnd scr ws = .ok s := hs
    unfold plainJoin
    simp only
    rw [hs]; rfl

include hx hx' ht in
theorem plainWord_back {block : Bool} {fuel fuel' : Nat} {st x : PlainSt} (hv : validUtf8 st.cur.buf = true)
    (hc : Closed st.cur.buf t) (hf : st.cur.buf.length < fuel') (h : plainWord o block fuel (PlainSt.grow t st) = .ok x)
    (hl : t = [] ∨ t.length < x.cur.buf.length) :
    ∃ st', x = PlainSt.grow t st' ∧ plainWord o' block fuel' st = .ok st' := by
  induction fuel generalizing st fuel' with
  | zero => cases h
  | succ fuel ih =>
    obtain ⟨fuel', rfl⟩ : ∃ k, fuel' = k + 1 := ⟨fuel' - 1, by omega⟩
    rw [plainWord] at h
    have hgb : (PlainSt.grow t st).cur.buf = st.cur.buf ++ t := rfl
    rw [hgb, isWhiteSpaceZ_closed hv hc, plainEnd_closed hv hc, cache_whole o hx, Out.ok_bind] at h
    rw [plainWord, cache_whole o' hx', Out.ok_bind]
    by_cases hw : isWhiteSpaceZ st.cur.buf = true
    · rw [if_pos hw] at h ⊢
      injection h with h; subst h
      exact ⟨st, rfl, rfl⟩
    rw [if_neg hw] at h ⊢
    by_cases he : plainEnd block st.cur.buf = true
    · rw [if_pos he] at h ⊢
      injection h with h; subst h
      exact ⟨st, rfl, rfl⟩
    rw [if_neg he] at h ⊢
    obtain ⟨y, h1, h⟩ := Out.bind_eq_ok.1 h
    have hne : 1 ≤ st.cur.buf.length := by
      rcases Nat.eq_zero_or_pos st.cur.buf.length with h0 | h0
      · rw [List.length_eq_zero_iff.1 h0] at hw; exact absurd rfl hw
      · exact h0
    obtain ⟨st1, rfl, h1, hc1⟩ := plainPush_grow ht hne h1
    have hm := (plainWord_lazy hx hx h).1.suf.length
    have hlen : (PlainSt.grow t st1).cur.buf.length = st.cur.buf.length - 1 + t.length := by
      show (st1.cur.buf ++ t).length = _
      rw [hc1]; simp
    rw [h1, Out.ok_bind]
    refine ih ?_ ?_ ?_ h
    · exact adv_valid hv (plainPush_ok h1).1
    · rw [hc1]
      refine hc.drop ?_
      rcases hl with hl | hl
      · exact .inl hl
      · right; omega
    · rw [hc1]; simp only [List.length_drop]; omega

include ht in
/-- A line break that was read and did not go beyond `s`. -/
theorem line_grow_le {s : Str} {m : MStats} {c : Cur} (hv : validUtf8 s = true) (hne : s ≠ []) (hb : isBreak s = true)
    (h : Cur.line ⟨s ++ t, m⟩ = .ok c) (hl : t.length ≤ c.buf.length) :
    c = ⟨s.drop (breakLen s) ++ t, m.update (breakLen s) 1 0⟩ ∧
      Cur.line ⟨s, m⟩ = .ok ⟨s.drop (breakLen s), m.update (breakLen s) 1 0⟩ := by
  obtain ⟨rfl, hbd⟩ := line_ok h
  simp only [List.length_drop, List.length_append] at hl hbd ⊢
  have hk : breakLen (s ++ t) = breakLen s := by
    by_cases hcr : s = [0x0D]
    · subst hcr
      cases t with
      | nil => rfl
      | cons y t =>
        by_cases hy : y = 0x0A
        · subst hy
          have : breakLen ([0x0D] ++ 0x0A :: t) = 2 := rfl
          rw [this] at hl
          simp at hl; omega
        · show breakLen (0x0D :: y :: t) = 1
          unfold breakLen; split <;> simp_all
    · exact breakLen_grow hv hne hcr
  rw [hk] at hbd ⊢
  have hle := breakLen_le s
  rw [boundary_grow ht hle] at hbd
  refine ⟨by rw [drop_grow hle], ?_⟩
  unfold Cur.line
  rw [if_pos hbd]

include hx hx' ht in
theorem plainSpace_back {base : Str} {fuel fuel' : Nat} {st x : PlainSt} (hv : validUtf8 st.cur.buf = true)
    (hf : st.cur.buf.length < fuel') (h : plainSpace o (base ++ t) fuel (PlainSt.grow t st) = .ok x)
    (hl : t.length ≤ x.cur.buf.length) :
    ∃ st', x = PlainSt.grow t st' ∧ plainSpace o' base fuel' st = .ok st' := by
  induction fuel generalizing st fuel' with
  | zero => cases h
  | succ fuel ih =>
    obtain ⟨fuel', rfl⟩ : ∃ k, fuel' = k + 1 := ⟨fuel' - 1, by omega⟩
    have hm := plainSpace_lazy hx hx h
    rw [plainSpace, cache_whole o' hx', Out.ok_bind]
    have hgb : (PlainSt.grow t st).cur.buf = st.cur.buf ++ t := rfl
    by_cases hne : st.cur.buf = []
    · have hws : isWhiteSpace (PlainSt.grow t st).cur.buf = false := by
        cases hw : isWhiteSpace (PlainSt.grow t st).cur.buf with
        | false => rfl
        | true =>
          have := hm.2.2.2.2.1 hw
          rw [hgb, hne] at this
          simp at this; omega
      refine ⟨st, hm.2.2.2.2.2.1 hws, ?_⟩
      rw [hne, if_neg (by decide), if_neg (by decide)]
    rw [plainSpace, cache_whole o hx, Out.ok_bind, hgb, isBlank_grow hne, isBreak_grow hv hne] at h
    by_cases hb : isBlank st.cur.buf = true
    · rw [if_pos hb] at h ⊢
      obtain ⟨y, h1, h⟩ := Out.bind_eq_ok.1 h
      have h1le : 1 ≤ st.cur.buf.length := List.length_pos_iff.2 hne
      obtain ⟨st1, rfl, h1, hc1⟩ := plainPush_grow ht h1le h1
      rw [h1, Out.ok_bind]
      refine ih (st := { st1 with whitespace := st1.whitespace + 1 }) (adv_valid hv (plainPush_ok h1).1) ?_ h
      simp only [hc1, List.length_drop]; omega
    rw [if_neg hb] at h ⊢
    by_cases hk : isBreak st.cur.buf = true
    · rw [if_pos hk] at h ⊢
      obtain ⟨y, h1, h⟩ := Out.bind_eq_ok.1 h
      obtain ⟨c, hc, h⟩ := Out.bind_eq_ok.1 h
      obtain ⟨st1, rfl, hc1, h1, -⟩ := plainNoBorrow_grow ht h1
      have hm2 := (plainSpace_lazy hx hx h).1.suf.length
      simp only at hm2
      have hcc : (PlainSt.grow t st1).cur = ⟨st1.cur.buf ++ t, st1.cur.stats⟩ := rfl
      rw [hcc, hc1] at hc
      obtain ⟨rfl, hline⟩ := line_grow_le ht hv hne hk hc (by omega)
      have hline : st.cur.line = _ := hline
      rw [h1, Out.ok_bind, hc1, hline, Out.ok_bind]
      have hbl := breakLen_pos.2 hk
      refine ih (st := { st1 with cur := ⟨_, _⟩, lines := st1.lines + 1 }) ?_ ?_ h
      · exact validUtf8_drop hv (line_ok hline).2
      · have := breakLen_le st.cur.buf
        simp only [List.length_drop]; omega
    rw [if_neg hk] at h ⊢
    injection h with h; subst h
    exact ⟨st, rfl, rfl⟩

end Yary.Deferred
