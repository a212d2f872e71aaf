import Verif.Proof.Lazy.Flow
import Verif.Proof.Scan.BlockText

/-! # What scanning a quoted scalar without evaluating it reads -/

namespace Yary.Deferred

open Chunk Spec

variable {o o' : SFlags} {t : Str} (hx : o.extendable = false) (hx' : o'.extendable = false) (ht : HeadOk t)

/-- No backslash is followed by a backslash and a double quote. -/
def NoEsc (s : Str) : Prop := ∀ p r, s ≠ p ++ 0x5C :: 0x5C :: b! '"' :: r

theorem NoEsc.suf {a b : Str} (h : NoEsc a) : Suf a b → NoEsc b := by
  rintro ⟨w, rfl⟩ p r rfl
  exact h (w ++ p) r (by simp)

/-- Scanning from `c` without evaluating gets where scanning from `c'` gets. -/
def LazyTo (o : SFlags) (single : Bool) (c c' : Cur) : Prop :=
  ∀ r, (∀ f, c'.buf.length < f → flowLazyLoop o single f c' = r) → ∀ f, c.buf.length < f → flowLazyLoop o single f c = r

theorem LazyTo.refl {single : Bool} {c : Cur} : LazyTo o single c c := fun _ h => h

theorem LazyTo.trans {single : Bool} {a b c : Cur} (h : LazyTo o single a b) (h' : LazyTo o single b c) : LazyTo o single a c :=
  fun r hr => h r (h' r hr)

include hx

/-- A byte that is not a quote, a backslash or a line break. -/
theorem lazy_byte {single : Bool} {b : Byte} {s : Str} {m : MStats} (hb : b < 128) (hs : HeadOk s) (hn : NoBrk b)
    (hq : ¬ ((single && b == 0x27) || (!single && b == b! '"')) = true)
    (he : ¬ (!single && [0x5C, b! '"'].isPrefixOf (b :: s)) = true) :
    LazyTo o single ⟨b :: s, m⟩ ⟨s, m.update 1 0 1⟩ := by
  intro r hr f hf
  obtain ⟨f, rfl⟩ : ∃ k, f = k + 1 := ⟨f - 1, by simp only [List.length_cons] at hf; omega⟩
  rw [flowLazyLoop, cache_whole o hx, Out.ok_bind]
  have h1 : ¬ ((single && [0x27, 0x27].isPrefixOf (b :: s)) || (!single && [0x5C, b! '"'].isPrefixOf (b :: s))) = true := by
    intro h
    rw [Bool.or_eq_true] at h
    rcases h with h | h
    · apply hq
      rw [Bool.and_eq_true] at h
      obtain ⟨h1, h2⟩ := h
      obtain ⟨u, hu⟩ := List.isPrefixOf_iff_prefix.1 h2
      injection hu with hu _
      subst hu
      rw [h1]; rfl
    · exact he h
  rw [if_neg (by simp), if_neg h1]
  simp only [startsWith_cons]
  rw [if_neg hq, if_neg (by rw [hn.isBreak]; simp)]
  have hw : widthOf (b :: s) = 1 := by simp [widthOf, show b < 0x80 from hb]
  rw [hw, adv_ascii hb hs, Out.ok_bind]
  exact hr f (by simp only [List.length_cons] at hf ⊢; omega)

/-- A run of such bytes. -/
theorem lazy_run {single : Bool} {w s : Str} {m : MStats} (hs : HeadOk s)
    (hw : ∀ b ∈ w, b < 128 ∧ NoBrk b ∧ b ≠ 0x27 ∧ b ≠ b! '"' ∧ b ≠ 0x5C) :
    LazyTo o single ⟨w ++ s, m⟩ ⟨s, m.update w.length 0 w.length⟩ := by
  induction w generalizing m with
  | nil => simpa [MStats.update_zero] using LazyTo.refl
  | cons b w ih =>
    obtain ⟨h1, h2, h3, h4, h5⟩ := hw b (by simp)
    have hh : HeadOk (w ++ s) := HeadOk.append (fun x hx => (hw x (by simp [hx])).1) hs
    have hb := lazy_byte hx (single := single) (m := m) h1 hh h2
      (by simp [h3, h4]) (by simp [List.isPrefixOf, Ne.symm h5])
    refine hb.trans ?_
    have := ih (m := m.update 1 0 1) (fun x hx => hw x (by simp [hx]))
    rw [MStats.update_add] at this
    rw [show (b :: w).length = 1 + w.length by simp; omega]
    exact this

/-- Two quotes, or an escaped quote. -/
theorem lazy_two {single : Bool} {s : Str} {m : MStats} {c : Cur}
    (h : ((single && [0x27, 0x27].isPrefixOf s) || (!single && [0x5C, b! '"'].isPrefixOf s)) = true)
    (hc : Cur.adv ⟨s, m⟩ 2 = .ok c) : LazyTo o single ⟨s, m⟩ c := by
  intro r hr f hf
  obtain ⟨f, rfl⟩ : ∃ k, f = k + 1 := ⟨f - 1, by omega⟩
  rw [flowLazyLoop, cache_whole o hx, Out.ok_bind]
  have hne : ¬ s.isEmpty = true := by
    intro h0
    cases s with
    | nil => simp at h
    | cons => simp at h0
  rw [if_neg hne, if_pos h, hc, Out.ok_bind]
  refine hr f ?_
  obtain ⟨rfl, hb⟩ := adv_ok hc
  have := boundary_le hb
  simp only [List.length_drop] at hf this ⊢
  omega

/-- A line break. -/
theorem lazy_line {single : Bool} {c c' : Cur} (hb : isBreak c.buf = true) (hc : c.line = .ok c') : LazyTo o single c c' := by
  intro r hr f hf
  obtain ⟨f, rfl⟩ : ∃ k, f = k + 1 := ⟨f - 1, by omega⟩
  rw [flowLazyLoop, cache_whole o hx, Out.ok_bind]
  have hbl := breakLen_pos.2 hb
  have hble := breakLen_le c.buf
  have hne : ¬ c.buf.isEmpty = true := by
    intro h0
    rw [List.isEmpty_iff.1 h0] at hb
    cases hb
  have hstart : ∀ q : Byte, NoBrk q → startsWith c.buf q = false := by
    intro q hq
    cases h : startsWith c.buf q with
    | false => rfl
    | true =>
      obtain ⟨r, hr⟩ := startsWith_iff.1 h
      rw [hr, hq.isBreak] at hb
      cases hb
  have hpre : ∀ (q a : Byte), NoBrk q → [q, a].isPrefixOf c.buf = false := by
    intro q a hq
    cases h : [q, a].isPrefixOf c.buf with
    | false => rfl
    | true =>
      obtain ⟨u, hu⟩ := List.isPrefixOf_iff_prefix.1 h
      rw [← hu, List.cons_append, hq.isBreak] at hb
      cases hb
  rw [if_neg hne, hpre _ _ (by decide), hpre _ _ (by decide), hstart _ (by decide), hstart _ (by decide),
    if_neg (by simp), if_neg (by simp), if_pos hb, hc, Out.ok_bind]
  refine hr f ?_
  obtain ⟨rfl, -⟩ := line_ok hc
  simp only [List.length_drop]
  omega

omit hx in
theorem escapeKind_high {b : Byte} {s : Str} (h : 128 ≤ b) : escapeKind (b :: s) = .unknown := by
  unfold escapeKind
  simp only [show b ≠ 48 by byte_omega, show b ≠ 97 by byte_omega, show b ≠ 98 by byte_omega, show b ≠ 116 by byte_omega, show b ≠ 0x09 by byte_omega,
    show b ≠ 110 by byte_omega, show b ≠ 118 by byte_omega, show b ≠ 102 by byte_omega, show b ≠ 114 by byte_omega, show b ≠ 101 by byte_omega,
    show b ≠ 32 by byte_omega, show b ≠ 34 by byte_omega, show b ≠ 47 by byte_omega, show b ≠ 0x5C by byte_omega, show b ≠ 78 by byte_omega,
    show b ≠ 95 by byte_omega, show b ≠ 76 by byte_omega, show b ≠ 80 by byte_omega, show b ≠ 120 by byte_omega, show b ≠ 117 by byte_omega,
    show b ≠ 85 by byte_omega, if_false, decide_false, Bool.or_false, Bool.false_eq_true]

omit hx in
theorem hexDigit_plain {b : Byte} (h : isHexDigit b = true) : b < 128 ∧ NoBrk b ∧ b ≠ 0x27 ∧ b ≠ b! '"' ∧ b ≠ 0x5C := by
  have hn := isHexDigit_noBrk h
  unfold isHexDigit at h
  simp only [Bool.or_eq_true, Bool.and_eq_true, decide_eq_true_eq] at h
  refine ⟨by byte_omega, hn, by byte_omega, by byte_omega, by byte_omega⟩

omit hx in
theorem readHex_digits {n v r : Nat} {s : Str} (h : readHex n v s = .ok r) :
    n ≤ s.length ∧ ∀ b ∈ s.take n, isHexDigit b = true := by
  have := readHex_sat (P := True) n v s
  rw [h] at this
  exact ⟨this.1, this.2.1⟩

/-- An escape sequence. -/
theorem lazy_escape {s w : Str} {m : MStats} {n : Nat} {c : Cur} (hs : startsWith s 0x5C = true) (hne : NoEsc s)
    (hv : validUtf8 s = true) (h : flowUnescape o' s = .ok (w, n)) (hx' : o'.extendable = false)
    (hc : Cur.adv ⟨s, m⟩ n = .ok c) :
    LazyTo o false ⟨s, m⟩ c := by
  obtain ⟨s, rfl⟩ := startsWith_iff.1 hs
  have hvc := adv_valid hv hc
  obtain ⟨rfl, hbd⟩ := adv_ok hc
  have hv1 := valid_tail hv (by decide)
  unfold flowUnescape at h
  have h5 : startsWith (0x5C :: s) 0x5C = true := rfl
  simp only [cache_whole o' hx', Out.ok_bind, h5, Bool.not_true, Bool.false_eq_true, if_false, List.drop_succ_cons, List.drop_zero] at h
  cases s with
  | nil => cases h
  | cons b s =>
    have hb : b < 128 := by
      rcases Nat.lt_or_ge b 128 with hb | hb
      · exact hb
      · rw [escapeKind_high hb] at h; cases h
    have hv2 := valid_tail hv1 hb
    have hh1 := headOk_of_valid hv1
    have hh2 := headOk_of_valid hv2
    cases hk : escapeKind (b :: s) with
    | eof => rw [hk] at h; cases h
    | unknown => rw [hk] at h; cases h
    | bytes v =>
      rw [hk] at h
      injection h with h; injection h with _ h; subst h
      have hnb := (escapeKind_bytes hk).2
      by_cases hq : b = b! '"'
      · subst hq
        exact lazy_two hx (by simp) hc
      · have h1 : LazyTo o false ⟨0x5C :: b :: s, m⟩ ⟨b :: s, m.update 1 0 1⟩ :=
          lazy_byte hx (by decide) hh1 (by decide) (by simp) (by simpa [List.isPrefixOf] using Ne.symm hq)
        have h2 : LazyTo o false ⟨b :: s, m.update 1 0 1⟩ ⟨s, (m.update 1 0 1).update 1 0 1⟩ := by
          refine lazy_byte hx hb hh2 hnb (by simpa using hq) ?_
          intro hp
          simp only [Bool.not_false, Bool.true_and] at hp
          obtain ⟨u, hu⟩ := List.isPrefixOf_iff_prefix.1 hp
          refine hne [] u ?_
          rw [← hu]; rfl
        rw [MStats.update_add] at h2
        exact h1.trans h2
    | code k =>
      rw [hk] at h
      simp only at h
      obtain ⟨v, hr, h⟩ := Out.bind_eq_ok.1 h
      injection h with h; injection h with _ h; subst h
      obtain ⟨hl, hd⟩ := readHex_digits hr
      simp only [List.drop_succ_cons, List.drop_zero] at hl hd
      have hb5 : b ≠ 0x5C ∧ b ≠ 0x27 ∧ b ≠ b! '"' ∧ NoBrk b := by
        rcases escapeKind_code hk with ⟨rfl, -⟩ | ⟨rfl, -⟩ | ⟨rfl, -⟩ <;> decide
      have h1 : LazyTo o false ⟨0x5C :: b :: s, m⟩ ⟨b :: s, m.update 1 0 1⟩ :=
        lazy_byte hx (by decide) hh1 (by decide) (by simp) (by simpa [List.isPrefixOf] using Ne.symm hb5.2.2.1)
      have hsplit : b :: s = (b :: s.take k) ++ s.drop k := by simp
      have hlen : (b :: s.take k).length = k + 1 := by simp; omega
      have hd2 : (0x5C :: b :: s).drop (2 + k) = s.drop k := by rw [Nat.add_comm]; rfl
      simp only [hd2] at hvc ⊢
      have h2 := lazy_run hx (single := false) (w := b :: s.take k) (s := s.drop k) (m := m.update 1 0 1) (headOk_of_valid hvc) (by
        intro x hx
        rcases List.mem_cons.1 hx with rfl | hx
        · exact ⟨hb, hb5.2.2.2, hb5.2.1, hb5.2.2.1, hb5.1⟩
        · exact hexDigit_plain (hd x hx))
      rw [← hsplit, hlen, MStats.update_add, show 1 + (k + 1) = 2 + k by omega] at h2
      exact h1.trans h2

omit hx in
theorem ws_false {b : Byte} {s : Str} (h : ¬ isWhiteSpaceZ (b :: s) = true) : isBreak (b :: s) = false := by
  unfold isWhiteSpaceZ at h
  cases hb : isBreak (b :: s) with
  | false => rfl
  | true => rw [hb] at h; simp at h

omit hx in
theorem noBrk_of {b : Byte} {s : Str} (hb : b < 128) (h : isBreak (b :: s) = false) : NoBrk b := by
  refine ⟨?_, ?_, by byte_omega, by byte_omega⟩
  · rintro rfl; cases h
  · rintro rfl; cases h

include hx' in
/-- The characters of a word. -/
theorem flowWord_lazy {base : Str} {single : Bool} {fuel : Nat} {st x : FlowSt} {d : Bool} (hv : validUtf8 st.cur.buf = true)
    (hne : single = false → NoEsc st.cur.buf) (h : flowWord o' base single fuel st = .ok (d, x)) :
    LazyTo o single st.cur x.cur ∧ validUtf8 x.cur.buf = true ∧
      (d = true → ((single && startsWith x.cur.buf 0x27 && !([0x27, 0x27].isPrefixOf x.cur.buf)) || (!single && startsWith x.cur.buf b! '"')) = true) := by
  induction fuel generalizing st with
  | zero => cases h
  | succ fuel ih =>
    rw [flowWord] at h
    by_cases hw : isWhiteSpaceZ st.cur.buf = true
    · rw [if_pos hw] at h
      injection h with h; injection h with hd h; subst h; subst hd
      exact ⟨.refl, hv, (fun h => by cases h)⟩
    rw [if_neg hw, cache_whole o' hx', Out.ok_bind] at h
    have go : ∀ {c : Cur} {n : Nat} {st1 : FlowSt}, st.cur.adv n = .ok c → st1.cur = c → LazyTo o single st.cur c →
        flowWord o' base single fuel st1 = .ok (d, x) →
        LazyTo o single st.cur x.cur ∧ validUtf8 x.cur.buf = true ∧
          (d = true → ((single && startsWith x.cur.buf 0x27 && !([0x27, 0x27].isPrefixOf x.cur.buf)) || (!single && startsWith x.cur.buf b! '"')) = true) := by
      intro c n st1 hc h1 hl h2
      have hvc := adv_valid hv hc
      obtain ⟨hc2, -⟩ := adv_ok hc
      have := ih (st := st1) (by rw [h1]; exact hvc)
        (fun hs => by rw [h1, hc2]; exact (hne hs).suf (Suf.drop _ _)) h2
      rw [h1] at this
      exact ⟨hl.trans this.1, this.2⟩
    by_cases hq2 : (single && [0x27, 0x27].isPrefixOf st.cur.buf) = true
    · rw [if_pos hq2] at h
      obtain ⟨st1, h1, h⟩ := Out.bind_eq_ok.1 h
      obtain ⟨c, hc, h⟩ := Out.bind_eq_ok.1 h
      rw [noBorrow_cur h1] at hc
      exact go hc rfl (lazy_two hx (by rw [hq2]; rfl) hc) h
    rw [if_neg hq2] at h
    by_cases hq : ((single && startsWith st.cur.buf 0x27) || (!single && startsWith st.cur.buf b! '"')) = true
    · rw [if_pos hq] at h
      injection h with h; injection h with hd h; subst h; subst hd
      refine ⟨.refl, hv, fun _ => ?_⟩
      cases single with
      | false => simpa using hq
      | true =>
        simp only [Bool.true_and, Bool.not_true, Bool.false_and, Bool.or_false] at hq hq2 ⊢
        simp only [hq, Bool.true_and, Bool.not_eq_true', Bool.not_eq_true] at hq2 ⊢
        exact hq2
    rw [if_neg hq] at h
    obtain ⟨b, s, hbs⟩ : ∃ b s, st.cur.buf = b :: s := by
      cases hb : st.cur.buf with
      | nil => rw [hb] at hw; exact absurd rfl hw
      | cons b s => exact ⟨b, s, rfl⟩
    have hst : st.cur = ⟨b :: s, st.cur.stats⟩ := by rw [← hbs]
    have hbr0 : isBreak (b :: s) = false := ws_false (by rw [← hbs]; exact hw)
    have hqb : ¬ ((single && b == 0x27) || (!single && b == b! '"')) = true := by
      rw [hbs, startsWith_cons, startsWith_cons] at hq; exact hq
    have hone : ∀ {c : Cur}, st.cur.adv 1 = .ok c → ¬ (!single && [0x5C, b! '"'].isPrefixOf (b :: s)) = true →
        LazyTo o single st.cur c := by
      intro c hc hp
      have hvc := adv_valid hv hc
      obtain ⟨rfl, hbd⟩ := adv_ok hc
      rw [hst] at hbd hvc ⊢
      rw [hst] at hv
      have hb := ascii_of_one hv hbd
      exact lazy_byte hx hb (headOk_of_valid hvc) (noBrk_of hb hbr0) hqb hp
    by_cases hbr : (!single && startsWith st.cur.buf 0x5C && isBreak (st.cur.buf.drop 1)) = true
    · rw [if_pos hbr] at h
      obtain ⟨st1, h1, h⟩ := Out.bind_eq_ok.1 h
      obtain ⟨c, hc, h⟩ := Out.bind_eq_ok.1 h
      rw [noBorrow_cur h1] at hc
      refine go hc rfl (hone hc ?_) h
      intro hp
      rw [hbs] at hbr
      simp only [Bool.and_eq_true] at hbr hp
      obtain ⟨u, hu⟩ := List.isPrefixOf_iff_prefix.1 hp.2
      injection hu with _ hu
      rw [List.drop_succ_cons, List.drop_zero, ← hu] at hbr
      have := hbr.2
      simp [isBreak] at this
    rw [if_neg hbr] at h
    by_cases hes : (!single && startsWith st.cur.buf 0x5C) = true
    · rw [if_pos hes] at h
      obtain ⟨st1, h1, h⟩ := Out.bind_eq_ok.1 h
      obtain ⟨⟨w, n⟩, hun, h⟩ := Out.bind_eq_ok.1 h
      obtain ⟨c, hc, h⟩ := Out.bind_eq_ok.1 h
      rw [noBorrow_cur h1] at hc hun
      rw [Bool.and_eq_true] at hes
      have hsf : single = false := by simpa using hes.1
      subst hsf
      exact go hc rfl (lazy_escape hx hes.2 (hne rfl) hv hun hx' hc) h
    · rw [if_neg hes] at h
      obtain ⟨st1, h1, h⟩ := Out.bind_eq_ok.1 h
      obtain ⟨c, hc, h2⟩ := push_cur h1
      refine go hc h2 (hone hc ?_) h
      intro hp
      apply hes
      rw [Bool.and_eq_true] at hp ⊢
      refine ⟨hp.1, ?_⟩
      obtain ⟨u, hu⟩ := List.isPrefixOf_iff_prefix.1 hp.2
      rw [hbs, ← hu]; rfl

include hx' in
theorem flowSpace_lazy {base : Str} {single : Bool} {fuel : Nat} {st x : FlowSt} (hv : validUtf8 st.cur.buf = true)
    (h : flowSpace o' base fuel st = .ok x) : LazyTo o single st.cur x.cur ∧ validUtf8 x.cur.buf = true := by
  induction fuel generalizing st with
  | zero => cases h
  | succ fuel ih =>
    rw [flowSpace, cache_whole o' hx', Out.ok_bind] at h
    split at h
    · rename_i hb
      obtain ⟨st1, h1, h⟩ := Out.bind_eq_ok.1 h
      obtain ⟨c, hc, h2⟩ := push_cur h1
      have hvc := adv_valid hv hc
      have := ih (by show validUtf8 st1.cur.buf = true; rw [h2]; exact hvc) h
      simp only at this
      rw [h2] at this
      refine ⟨LazyTo.trans ?_ this.1, this.2⟩
      obtain ⟨rfl, -⟩ := adv_ok hc
      obtain ⟨b, s, hbs, hb⟩ := isBlank_iff.1 hb
      have hst : st.cur = ⟨b :: s, st.cur.stats⟩ := by rw [← hbs]
      rw [hst] at hvc ⊢
      refine lazy_byte hx ?_ (headOk_of_valid hvc) ?_ ?_ ?_
      · rcases hb with rfl | rfl <;> decide
      · rcases hb with rfl | rfl <;> decide
      · rcases hb with rfl | rfl <;> simp
      · rcases hb with rfl | rfl <;> simp [List.isPrefixOf]
    split at h
    · rename_i hb
      obtain ⟨st1, h1, h⟩ := Out.bind_eq_ok.1 h
      obtain ⟨c, hc, h⟩ := Out.bind_eq_ok.1 h
      rw [noBorrow_cur h1] at hc
      have hvc : validUtf8 c.buf = true := by
        obtain ⟨rfl, hb⟩ := line_ok hc
        exact validUtf8_drop hv hb
      have hl := lazy_line hx (single := single) hb hc
      have := ih (by exact hvc) h
      exact ⟨hl.trans this.1, this.2⟩
    · injection h with h; subst h; exact ⟨.refl, hv⟩

include hx' in
theorem flowLoop_lazy {base : Str} {single : Bool} {fuel : Nat} {st x : FlowSt} (hv : validUtf8 st.cur.buf = true)
    (hne : single = false → NoEsc st.cur.buf) (h : flowLoop o' base single fuel st = .ok x) :
    LazyTo o single st.cur x.cur ∧ validUtf8 x.cur.buf = true ∧
      ((single && startsWith x.cur.buf 0x27 && !([0x27, 0x27].isPrefixOf x.cur.buf)) || (!single && startsWith x.cur.buf b! '"')) = true := by
  induction fuel generalizing st with
  | zero => cases h
  | succ fuel ih =>
    rw [flowLoop, cache_whole o' hx', Out.ok_bind] at h
    split at h
    · cases h
    split at h
    · cases h
    rw [cache_whole o' hx', Out.ok_bind] at h
    obtain ⟨⟨d, st1⟩, h1, h⟩ := Out.bind_eq_ok.1 h
    obtain ⟨l1, v1, q1⟩ := flowWord_lazy hx hx' (st := { st with escapedBreak := none }) hv hne h1
    have s1 := flowWord_suf hx' h1
    simp only at h s1 l1
    split at h
    · rename_i hd
      injection h with h; subst h; exact ⟨l1, v1, q1 hd⟩
    obtain ⟨st2, h2, h⟩ := Out.bind_eq_ok.1 h
    obtain ⟨st3, h3, h⟩ := Out.bind_eq_ok.1 h
    obtain ⟨l2, v2⟩ := flowSpace_lazy hx hx' (single := single) (st := { st1 with whitespace := 0, lines := 0 }) v1 h2
    have s2 := flowSpace_suf hx' h2
    simp only at l2 s2
    have hc3 := flowJoin_cur h3
    obtain ⟨l3, v3, q3⟩ := ih (by rw [hc3]; exact v2) (fun hs => by rw [hc3]; exact (hne hs).suf (s1.trans s2)) h
    rw [hc3] at l3
    exact ⟨(l1.trans l2).trans l3, v3, q3⟩

omit hx in
/-- The first part of a text, as a slice. -/
theorem slice_front {s r : Str} (hr : HeadOk r) : (slice (s ++ r) 0 ((s ++ r).length - r.length) : Out ScanError Str) = .ok s := by
  have hl : (s ++ r).length - r.length = s.length := by simp
  rw [hl]
  have hb : isBoundary (s ++ r) s.length = true := by
    rw [boundary_grow hr (Nat.le_refl _)]
    unfold isBoundary
    simp
  unfold slice
  have h0 : isBoundary (s ++ r) 0 = true := rfl
  simp [hb, h0]

include hx' in
/-- A quoted scalar that can be scanned can be scanned without evaluating it, and evaluated later. -/
theorem scanFlow_lazy {single : Bool} {c c2 : Cur} {tok : Token} (hv : validUtf8 c.buf = true)
    (hne : single = false → NoEsc c.buf) (h : scanFlowEager o' single c = .ok (tok, c2)) :
    ∃ l, scanFlowLazy o single c = .ok (l, c2) ∧ l.intoToken = .ok tok := by
  unfold scanFlowEager at h
  rw [cache_whole o' hx', Out.ok_bind] at h
  obtain ⟨c1, h1, h⟩ := Out.bind_eq_ok.1 h
  obtain ⟨st, h2, h⟩ := Out.bind_eq_ok.1 h
  obtain ⟨s, h3, h⟩ := Out.bind_eq_ok.1 h
  rw [cache_whole o' hx', Out.ok_bind] at h
  obtain ⟨c3, h4, h⟩ := Out.bind_eq_ok.1 h
  injection h with h
  injection h with htok h
  subst h
  have v1 := adv_valid hv h1
  have e1 := (adv_ok h1).1
  have n1 : single = false → NoEsc c1.buf := fun hs => by rw [e1]; exact (hne hs).suf (Suf.drop _ _)
  obtain ⟨l, v, q⟩ := flowLoop_lazy hx hx' (st := { cur := c1 }) v1 n1 h2
  have v3 := adv_valid v h4
  have e4 := (adv_ok h4).1
  have hh3 := headOk_of_valid v3
  -- the closing quote
  obtain ⟨q0, hq0, hbuf⟩ : ∃ q0, (q0 = 0x27 ∨ q0 = b! '"') ∧ st.cur.buf = q0 :: c3.buf := by
    rw [e4]
    rw [Bool.or_eq_true, Bool.and_eq_true, Bool.and_eq_true, Bool.and_eq_true] at q
    rcases q with ⟨⟨-, q⟩, -⟩ | ⟨-, q⟩
    · obtain ⟨r, hr⟩ := startsWith_iff.1 q
      exact ⟨_, .inl rfl, by rw [hr]; rfl⟩
    · obtain ⟨r, hr⟩ := startsWith_iff.1 q
      exact ⟨_, .inr rfl, by rw [hr]; rfl⟩
  -- the scan without evaluation
  have hlast : ∀ f, st.cur.buf.length < f → flowLazyLoop o single f st.cur = .ok c3 := by
    intro f hf
    obtain ⟨f, rfl⟩ : ∃ k, f = k + 1 := ⟨f - 1, by omega⟩
    rw [flowLazyLoop, cache_whole o hx, Out.ok_bind, if_neg (by rw [hbuf]; simp)]
    have hq1 : ¬ ((single && [0x27, 0x27].isPrefixOf st.cur.buf) || (!single && [0x5C, b! '"'].isPrefixOf st.cur.buf)) = true := by
      cases single with
      | true => simp only [Bool.true_and, Bool.not_true, Bool.false_and, Bool.or_false, Bool.and_eq_true] at q ⊢
                rw [Bool.not_eq_true]; simpa only [Bool.not_eq_true'] using q.2
      | false =>
        simp only [Bool.false_and, Bool.not_false, Bool.true_and, Bool.false_or] at q ⊢
        obtain ⟨r, hr⟩ := startsWith_iff.1 q
        rw [hr]; simp [List.isPrefixOf]
    have hq2 : ((single && startsWith st.cur.buf 0x27) || (!single && startsWith st.cur.buf b! '"')) = true := by
      cases single with
      | true => simp only [Bool.true_and, Bool.not_true, Bool.false_and, Bool.or_false, Bool.and_eq_true] at q ⊢
                exact q.1
      | false => simpa using q
    rw [if_neg hq1, if_pos hq2, h4]
  have hlazy : flowLazyLoop o single (c.buf.length + 1) c1 = .ok c3 := by
    refine l _ hlast _ ?_
    show c1.buf.length < _
    rw [e1]; simp only [List.length_drop]; omega
  -- the text of the scalar
  have hs1 : Suf c1.buf (q0 :: c3.buf) := by rw [← hbuf]; exact flowLoop_suf hx' h2
  have hpos : c.buf ≠ [] := by
    obtain ⟨w, hw⟩ := hs1
    intro h0
    rw [e1] at hw
    simp only [h0, List.drop_nil] at hw
    exact absurd (congrArg List.length hw) (by simp)
  obtain ⟨p, hp⟩ : ∃ p, c.buf = p ++ c3.buf := by
    obtain ⟨w, hw⟩ := hs1
    obtain ⟨w', hw'⟩ := Suf.drop c.buf 1
    rw [e1] at hw
    simp only at hw
    exact ⟨w' ++ w ++ [q0], by rw [hw', hw]; simp⟩
  have hplen : 1 ≤ p.length := by
    have := hs1.length
    rw [e1, hp] at this
    simp at this
    omega
  have vp : validUtf8 p = true := valid_before (by rw [← hp]; exact hv) hh3
  refine ⟨.flow { o with extendable := false } p c.stats single, ?_, ?_⟩
  · unfold scanFlowLazy
    rw [cache_whole o hx, Out.ok_bind, h1, Out.ok_bind, hlazy, Out.ok_bind, hp, slice_front hh3, Out.ok_bind]
  · have hcb : c = ⟨p ++ c3.buf, c.stats⟩ := by rw [← hp]
    rw [hcb] at h1
    obtain ⟨e1', h1'⟩ := adv_grow hh3 hplen h1
    have v1' := adv_valid (c := ⟨p, c.stats⟩) vp h1'
    rw [hp] at h2 h3
    have hst : ({ cur := c1 } : FlowSt) = FlowSt.grow c3.buf { cur := ⟨p.drop 1, c.stats.update 1 0 1⟩ } := by
      rw [e1']; rfl
    rw [hst] at h2
    obtain ⟨st', rfl, h2'⟩ := flowLoop_back hx' (o' := { o with extendable := false }) rfl hh3 (fuel' := p.length + 1) v1'
      (by simp only [List.length_drop]; omega) (by simp only [List.length_drop]; omega) h2 hbuf hq0
    rw [flowSlice_grow hh3] at h3
    have hend : st'.cur.buf = [q0] := by
      have : st'.cur.buf ++ c3.buf = [q0] ++ c3.buf := hbuf
      exact List.append_cancel_right this
    have hfin : st'.cur.adv 1 = .ok ⟨[], st'.cur.stats.update 1 0 1⟩ := by
      have : st'.cur = ⟨[q0], st'.cur.stats⟩ := by rw [← hend]
      rw [this]
      exact adv_ascii (by rcases hq0 with rfl | rfl <;> decide) (fun b t h => by cases h)
    unfold Lazy.intoToken scanFlowEager
    simp only
    rw [cache_whole { o with extendable := false } rfl, Out.ok_bind, h1', Out.ok_bind, h2', Out.ok_bind, h3, Out.ok_bind,
      cache_whole { o with extendable := false } rfl, Out.ok_bind, hfin, Out.ok_bind, Out.ok_bind, htok]

end Yary.Deferred
