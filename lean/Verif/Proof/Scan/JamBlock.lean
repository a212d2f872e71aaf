import Verif.Proof.Scan.Jams
import Verif.Proof.Scan.FaultBlock

/-! # Where the scanner panics: block scalars -/

namespace Yary

open Spec Blocks

variable {opts : SFlags} {J : Prop}

theorem Jams.self {α : Type} {x : Out ScanError α} {Q : α → Prop} (h : Jams x Q J) : Jams x (fun a => x = .ok a ∧ Q a) J :=
  ⟨fun a ha => ⟨ha, h.1 a ha⟩, h.2⟩

/-- On the rest of the line there is a wide character. -/
def WideLine (s : Str) : Prop := ∃ l t, s = l ++ t ∧ SameLine l t ∧ Wide t

theorem toBreak_jams {fuel : Nat} {c : Cur} (hv : validUtf8 c.buf = true) :
    Jams (toBreak opts fuel c) (fun c' => validUtf8 c'.buf = true ∧ ∃ l, c.buf = l ++ c'.buf ∧ Ascii l) (WideLine c.buf) := by
  induction fuel generalizing c with
  | zero => exact .diverge
  | succ fuel ih =>
    rw [toBreak]
    split
    · exact .ok ⟨hv, [], rfl, .nil⟩
    · rename_i hb
      simp only [isBreakZ, Bool.or_eq_true, List.isEmpty_iff, not_or, Bool.not_eq_true] at hb
      obtain ⟨b, t, hc⟩ := List.exists_cons_of_ne_nil hb.2
      refine cache_jam (((adv_char_jams hc hv hb.1).mono (fun _ h => h) fun h => ?_).bind ?_)
      · exact ⟨[], c.buf, rfl, fun i hi => absurd hi (by simp), h⟩
      · rintro _ ⟨rfl, h8, ht⟩
        refine (ih ht).mono ?_ ?_
        · rintro c' ⟨h1, l, h2, h3⟩
          exact ⟨h1, b :: l, by rw [hc, List.cons_append, ← h2], h3.cons h8⟩
        · rintro ⟨l, u, h1, h2, h3⟩
          simp only at h1
          subst h1
          exact ⟨b :: l, u, hc, sameLine_cons (hc ▸ hb.1) h2, h3⟩

theorem blank_lt {b : Byte} (h : b = 0x20 ∨ b = 0x09) : b < 0x80 := by rcases h with rfl | rfl <;> decide

theorem skipBlanksLoop_jams {fuel : Nat} {c : Cur} (hv : validUtf8 c.buf = true) :
    Jams (skipBlanksLoop opts fuel c) (fun c' => validUtf8 c'.buf = true) J := by
  induction fuel generalizing c with
  | zero => exact .diverge
  | succ fuel ih =>
    rw [skipBlanksLoop]
    split
    · rename_i hb
      obtain ⟨b, t, hc, hb⟩ := blank_cases hb
      have ht := valid_tail (hc ▸ hv) (blank_lt hb)
      refine cache_jam ((adv_jams (p := [b]) hc rfl ht).bind ?_)
      rintro _ rfl
      exact ih ht
    · exact .ok hv

/-! ### The header -/

theorem digit_lt {x : Byte} (h : isDigit x = true) : x < 0x80 := by
  simp only [isDigit, Bool.and_eq_true, decide_eq_true_eq] at h
  have h9 : b! '9' = 0x39 := rfl
  rw [h9] at h
  byte_omega

/-- Only ASCII characters are read as indicators. -/
theorem marks_ascii {s : Str} (hv : validUtf8 s = true) : ∃ p t, s = p ++ t ∧ p.length = marksLen s ∧ Ascii p := by
  have wide : ∀ {x : Byte}, 0x80 ≤ x → isDigit x = false ∧ x ≠ b! '+' ∧ x ≠ b! '-' := by
    intro x hx
    refine ⟨?_, ?_, ?_⟩
    · cases hd : isDigit x with
      | false => rfl
      | true => have := digit_lt hd; byte_omega
    · rintro rfl; revert hx; decide
    · rintro rfl; revert hx; decide
  have hpq : (b! '+' : Byte) ≠ b! '-' := by decide
  have hp := Blocks.signs_not_digits.1
  have hq := Blocks.signs_not_digits.2
  match s, hv with
  | [], _ => exact ⟨[], [], rfl, rfl, .nil⟩
  | [a], hv =>
    by_cases ha : a < 0x80
    · by_cases hm : marksLen [a] = 0
      · exact ⟨[], [a], rfl, hm.symm, .nil⟩
      · refine ⟨[a], [], rfl, ?_, .cons ha .nil⟩
        revert hm
        unfold marksLen
        by_cases h1 : a = b! '+'
        · subst h1; simp [headerHas, headerDigit, startsWith, hp]
        · by_cases h2 : a = b! '-'
          · subst h2; simp [headerHas, headerDigit, startsWith, hq, hpq.symm]
          · cases h3 : isDigit a <;> simp [headerHas, headerDigit, startsWith, h1, h2, h3]
    · obtain ⟨h1, h2, h3⟩ := wide (x := a) (by byte_omega)
      refine ⟨[], [a], rfl, ?_, .nil⟩
      simp [marksLen, headerHas, headerDigit, startsWith, h1, h2, h3]
  | a :: b :: t, hv =>
    by_cases ha : a < 0x80
    · by_cases hb : b < 0x80
      · have : marksLen (a :: b :: t) ≤ 2 := by
          unfold marksLen
          repeat' split
          all_goals omega
        obtain h | h | h : marksLen (a :: b :: t) = 0 ∨ marksLen (a :: b :: t) = 1 ∨ marksLen (a :: b :: t) = 2 := by omega
        · exact ⟨[], _, rfl, h.symm, .nil⟩
        · exact ⟨[a], _, rfl, h.symm, .cons ha .nil⟩
        · exact ⟨[a, b], t, rfl, h.symm, .cons ha (.cons hb .nil)⟩
      · obtain ⟨h1, h2, h3⟩ := wide (x := b) (by byte_omega)
        by_cases hm : marksLen (a :: b :: t) = 0
        · exact ⟨[], _, rfl, hm.symm, .nil⟩
        · refine ⟨[a], b :: t, rfl, ?_, .cons ha .nil⟩
          revert hm
          unfold marksLen
          by_cases k1 : a = b! '+'
          · subst k1; simp [headerHas, headerDigit, startsWith, hp, h1]
          · by_cases k2 : a = b! '-'
            · subst k2; simp [headerHas, headerDigit, startsWith, hq, hpq.symm, h1, h2]
            · cases k3 : isDigit a <;> simp [headerHas, headerDigit, startsWith, h1, h2, h3, k1, k2, k3]
    · obtain ⟨h1, h2, h3⟩ := wide (x := a) (by byte_omega)
      have hb : 0x80 ≤ b := by
        have := wide_boundary hv (by byte_omega)
        simp [isBoundary] at this
        byte_omega
      obtain ⟨k1, k2, k3⟩ := wide hb
      refine ⟨[], _, rfl, ?_, .nil⟩
      simp [marksLen, headerHas, headerDigit, startsWith, h1, h2, h3, k1, k2, k3]

theorem scanHeaders_jams {c : Cur} (hv : validUtf8 c.buf = true) :
    Jams (scanHeaders opts c) (fun x => scanHeaders opts c = .ok x ∧ validUtf8 x.2.2.buf = true) J := by
  refine Jams.self ?_
  unfold scanHeaders
  refine cache_jam ?_
  obtain ⟨p, t, h1, h2, h3⟩ := marks_ascii hv
  have ht := validUtf8_drop_ascii h3 (h1 ▸ hv)
  refine (adv_jams h1 h2.symm ht).bind ?_
  rintro _ rfl
  exact .ok ht

theorem blockHeader_jams {lazy : Bool} {b : Byte} {s : Str} {m : MStats} {base : Nat} (hv : validUtf8 (b :: s) = true) (hb : b < 0x80) :
    Jams (blockHeader opts ⟨b :: s, m⟩) (fun x => blockHeader opts ⟨b :: s, m⟩ = .ok x ∧ validUtf8 x.2.2.buf = true) (BlockJam lazy base s) := by
  refine Jams.self ?_
  unfold blockHeader
  have hs := valid_tail hv hb
  refine cache_jam ((adv_jams (p := [b]) rfl rfl hs).bind ?_)
  rintro _ rfl
  refine (scanHeaders_jams hs).bind ?_
  rintro ⟨ch, ex, c2⟩ ⟨h2, hv2⟩
  simp only at hv2 ⊢
  refine Jams.bind (Q := fun c' => validUtf8 c'.buf = true) ?_ ?_
  · unfold skipBlanks
    refine cache_jam ((skipBlanksLoop_jams hv2).self.bind ?_)
    rintro c3 ⟨h3, hv3⟩
    obtain ⟨bl, g1, g2, g3⟩ := skipBlanksLoop_means h3
    split
    · rename_i hsh
      refine (toBreak_jams hv3).mono (fun c' h => h.1) ?_
      rintro ⟨l, t, k1, k2, k3⟩
      obtain ⟨u, hu⟩ := startsWith_iff.1 hsh
      obtain ⟨⟨x, t', rfl, hx⟩, k4⟩ := k3
      cases l with
      | nil =>
        rw [hu, List.nil_append] at k1
        cases k1
        exact absurd hx (by decide)
      | cons y l =>
        rw [hu, List.cons_append] at k1
        cases k1
        have hc2 := g1.1
        rw [hu] at hc2
        obtain ⟨w, k, d, f1, f2, -, -⟩ := scanHeaders_marks h2 (by
          intro z r hz hm
          rw [hz] at hc2
          have := isMark_plain (isMark_of hm)
          cases bl with
          | nil => cases hc2; exact this.2.2.1 rfl
          | cons y bl =>
            cases hc2
            rcases g2 z (by simp) with h | h
            · exact this.1 h
            · exact this.2.1 h)
        refine .comment (l := l) ?_ f2 g2 (fun i hi => ?_) ⟨⟨x, t', rfl, hx⟩, k4⟩
        · have := f1.1
          simp only at this
          rw [this, hc2]
        · exact k2 (i + 1) (by simpa using hi)
    · exact .ok hv3
  · intro c3 hv3
    refine cache_jam ?_
    split
    · exact .err
    · exact (line_jams' hv3).bind fun c' h => .ok h.2

/-! ### The indentation -/

theorem scanIndentLoop_jams {n fuel l : Nat} {c : Cur} (hv : validUtf8 c.buf = true) :
    Jams (scanIndentLoop opts n fuel c l) (fun r => validUtf8 r.1.buf = true) J := by
  induction fuel generalizing c l with
  | zero => exact .diverge
  | succ fuel ih =>
    rw [scanIndentLoop]
    split
    · split
      · rename_i hs
        obtain ⟨t, ht⟩ := startsWith_iff.1 hs
        have hvt := valid_tail (ht ▸ hv) (by decide)
        refine (adv_jams (p := [0x20]) ht rfl hvt).bind ?_
        rintro _ rfl
        exact cache_jam (ih hvt)
      · split
        · exact .err
        · exact (line_jams' hv).bind fun c' h => cache_jam (ih h.2)
    · exact .ok hv

theorem scanIndent_jams {n l : Nat} {c : Cur} (hv : validUtf8 c.buf = true) : Jams (scanIndent opts n c l) (fun r => validUtf8 r.1.buf = true) J := by
  unfold scanIndent
  split
  · exact .ok hv
  · exact cache_jam (scanIndentLoop_jams hv)

theorem eatBreak_jams {c : Cur} {l : Nat} (hv : validUtf8 c.buf = true) : Jams (eatBreak opts c l) (fun r => validUtf8 r.1.buf = true) J := by
  unfold eatBreak
  refine cache_jam ?_
  split
  · exact (line_jams' hv).bind fun c' h => .ok h.2
  · exact .ok hv

theorem detectBlanks_jams {fuel : Nat} {st : DetectSt} (hv : validUtf8 st.cur.buf = true) :
    Jams (detectBlanks opts fuel st) (fun st' => validUtf8 st'.cur.buf = true) J := by
  induction fuel generalizing st with
  | zero => exact .diverge
  | succ fuel ih =>
    rw [detectBlanks]
    split
    · rename_i hb
      obtain ⟨b, t, hc, hb⟩ := blank_cases hb
      have ht := valid_tail (hc ▸ hv) (blank_lt hb)
      refine cache_jam ?_
      split
      · exact .err
      · refine (adv_jams (p := [b]) hc rfl ht).bind ?_
        rintro _ rfl
        exact ih (by exact ht)
    · exact .ok hv

theorem detectLoop_jams {fuel : Nat} {st : DetectSt} (hv : validUtf8 st.cur.buf = true) :
    Jams (detectLoop opts fuel st) (fun st' => validUtf8 st'.cur.buf = true) J := by
  induction fuel generalizing st with
  | zero => exact .diverge
  | succ fuel ih =>
    rw [detectLoop]
    refine cache_jam ((detectBlanks_jams hv).bind fun st1 h1 => ?_)
    generalize (if st1.cur.stats.column > st1.indent then st1.cur.stats.column else st1.indent) = i
    refine cache_jam ?_
    split
    · exact (line_jams' h1).bind fun c h => ih (by exact h.2)
    · exact .ok h1

theorem break_space {w t : Str} (h : BreakBefore w t) : ∀ x ∈ w, x ≠ 0x20 := by
  have hw := h.1
  simp only [lineBreaks, List.mem_cons, List.not_mem_nil, or_false] at hw
  rcases hw with rfl | rfl | rfl | rfl | rfl | rfl <;> decide

/-- There are spaces only in the first line, if the text is still borrowed. -/
theorem detectLoop_borrows {fuel : Nat} {st st' : DetectSt} (h : detectLoop opts fuel st = .ok st') (hb : st'.canBorrow = true) :
    st.canBorrow = true ∧ ∃ a q, st.cur.buf = spaces a ++ (q ++ st'.cur.buf) ∧ (∀ x ∈ q, x ≠ 0x20) ∧ (a = 0 ∨ st.lines = 0) := by
  induction fuel generalizing st with
  | zero => cases h
  | succ fuel ih =>
    rw [detectLoop] at h
    obtain ⟨_, -, h⟩ := Out.bind_eq_ok.1 h
    obtain ⟨st1, h1, h⟩ := Out.bind_eq_ok.1 h
    obtain ⟨_, -, h⟩ := Out.bind_eq_ok.1 h
    obtain ⟨a, g1, g2, g3, g4, g5, g6⟩ := detectBlanks_means h1
    generalize (if st1.cur.stats.column > st1.indent then st1.cur.stats.column else st1.indent) = i at h
    split at h
    · rename_i hbr
      obtain ⟨c2, h2, h⟩ := Out.bind_eq_ok.1 h
      obtain ⟨w, t, f1, f2, f3, f4, f5⟩ := line_took hbr h2
      obtain ⟨e1, a', q, e2, e3, e4⟩ := ih h
      have : a' = 0 := by
        rcases e4 with h | h
        · exact h
        · simp at h
      subst this
      obtain ⟨k1, k2⟩ := g6 e1
      refine ⟨k1, a, w ++ q, ?_, ?_, k2⟩
      · rw [g1.1]
        simp only at f2 e2
        rw [f2, ← f3, e2]
        simp [spaces]
      · intro x hx
        rcases List.mem_append.1 hx with hx | hx
        · exact break_space f1 x hx
        · exact e3 x hx
    · cases h
      obtain ⟨k1, k2⟩ := g6 hb
      exact ⟨k1, a, [], by rw [g1.1]; rfl, by simp, k2⟩

/-! ### The lines -/

/-- A wide character on one of the lines. -/
def WideIn (n : Nat) (u : Str) : Prop := ∃ l v, InLines n u (l ++ v) ∧ SameLine l v ∧ Wide v

/-- The part of the text that is borrowed. -/
def Held (base : Str) (st : BlockSt) : Prop :=
  ∃ p q t, base = p ++ (q ++ t) ∧ st.start = p.length ∧ st.stop = p.length + q.length ∧ Ascii q ∧ validUtf8 t = true

/-- What is known of the scalar so far: a copy is ASCII; what is borrowed is a part of the text. -/
def BlockHas (base : Str) (read : Nat) (st : BlockSt) : Prop :=
  Ascii st.scratch ∧ (st.canBorrow = true → (∃ p, base = p ++ st.cur.buf ∧ st.start = p.length ∧ p ≠ [] ∧ st.cur.stats.read = read + p.length ∧ st.lines = 0 ∧
    st.stop = 0) ∨ Held base st ∧ (st.lines = 0 → st.cur.buf = []))

theorem blockJoin_ascii (fold : Bool) (l : Nat) : Ascii (blockJoin fold l) := by
  unfold blockJoin
  split
  · split
    · exact .nil
    · exact .cons (by decide) .nil
    · exact .replicate _ (by decide)
  · exact .replicate _ (by decide)

theorem blockLoop_jams {base u : Str} {read : Nat} {fold : Bool} {n fuel : Nat} {st : BlockSt} (hn : 0 < n) (hv : validUtf8 st.cur.buf = true)
    (h : st.cur.stats.column = n → st.cur.buf ≠ [] → InLines n u st.cur.buf) (hh : BlockHas base read st) :
    Jams (blockLoop opts base read fold n fuel st) (fun st' => BlockHas base read st') (WideIn n u) := by
  induction fuel generalizing st with
  | zero => exact .diverge
  | succ fuel ih =>
    rw [blockLoop]
    split
    · rename_i hc
      simp only [Bool.and_eq_true, decide_eq_true_eq, Bool.not_eq_true', List.isEmpty_eq_false_iff] at hc
      refine Jams.bind (Q := fun st' => st'.cur = st.cur ∧ Ascii st'.scratch ∧ (st'.canBorrow = true → 
        ∃ p, base = p ++ st.cur.buf ∧ st'.start = p.length ∧ p ≠ [] ∧ st.cur.stats.read = read + p.length)) ?_ ?_
      · unfold BlockSt.trapdoor
        split
        · rename_i ht
          simp only [Bool.and_eq_true, decide_eq_true_eq] at ht
          rcases hh.2 ht.1 with ⟨p, -, -, -, -, h0, -⟩ | ⟨⟨p, q, t, h1, h2, h3, h4, h5⟩, -⟩
          · omega
          · refine (slice_jams h1 h2 h3 ?_ h5).bind ?_
            · rw [validUtf8_append h4.validUtf8]; exact h5
            · rintro _ rfl
              exact .ok ⟨rfl, hh.1.append h4, fun h => by cases h⟩
        · rename_i ht
          refine .ok ⟨rfl, hh.1, fun hb => ?_⟩
          rcases hh.2 hb with ⟨p, h1, h2, h3, h4, -, -⟩ | ⟨-, h0⟩
          · exact ⟨p, h1, h2, h3, h4⟩
          · simp only [hb, Bool.true_and, decide_eq_true_eq] at ht
            exact absurd (h0 (by omega)) hc.2
      rintro st1 ⟨e1, ha, hp⟩
      refine cache_jam ?_
      rw [e1]
      refine Jams.bind ((toBreak_jams hv).self.mono (fun _ h => h) ?_) ?_
      · rintro ⟨l, t, k1, k2, k3⟩
        exact ⟨l, t, k1 ▸ h hc.1 hc.2, k2, k3⟩
      rintro c1 ⟨h1, hv1, l, hl, hla⟩
      have hmeans := toBreak_means h1
      refine (eatBreak_jams hv1).self.bind ?_
      rintro ⟨c2, k1⟩ ⟨h2, hv2⟩
      simp only at hv2
      refine ((scanIndent_jams hv2).self.and (indent_faults hn hc.1 (h hc.1 hc.2) h1 h2).1).bind ?_
      rintro ⟨c3, k⟩ ⟨⟨h3, hv3⟩, h4⟩
      refine ih (by exact hv3) (by exact h4) ⟨?_, ?_⟩
      · simp only
        split
        · exact ha.append (blockJoin_ascii _ _)
        · refine (ha.append (blockJoin_ascii _ _)).append ?_
          rw [hl]; simpa using hla
      · simp only
        intro hb
        obtain ⟨p, g1, g2, g3, g4⟩ := hp hb
        right
        simp only [hb, ↓reduceIte]
        have hs0 : st1.start ≠ 0 := by
          rw [g2]; cases p with
          | nil => exact absurd rfl g3
          | cons _ _ => simp
        rw [if_neg hs0]
        obtain ⟨l', m1, m2, -⟩ := hmeans
        have : l' = l := List.append_cancel_right (m1.1.symm.trans hl)
        subst this
        refine ⟨⟨p, l', c1.buf, by rw [g1, hl], g2, ?_, hla, hv1⟩, ?_⟩
        · show c1.stats.read - read = _
          have := m1.2
          omega
        · intro hk
          replace hk : k = 0 := hk
          show c3.buf = []
          obtain ⟨_, _, -, -, hx⟩ := line_means hn hc.1 h1 h2 h3
          rcases hx with ⟨-, -, h0, -⟩ | ⟨_, _, _, -, -, -, -, hk'⟩
          · exact h0
          · omega
    · exact .ok hh

theorem blockLazyLoop_jams {u : Str} {n fuel : Nat} {c : Cur} (hn : 0 < n) (hv : validUtf8 c.buf = true)
    (h : c.stats.column = n → c.buf ≠ [] → InLines n u c.buf) :
    Jams (blockLazyLoop opts n fuel c) (fun c' => validUtf8 c'.buf = true) (WideIn n u) := by
  induction fuel generalizing c with
  | zero => exact .diverge
  | succ fuel ih =>
    rw [blockLazyLoop]
    split
    · rename_i hc
      simp only [Bool.and_eq_true, decide_eq_true_eq, Bool.not_eq_true', List.isEmpty_eq_false_iff] at hc
      refine cache_jam ?_
      refine Jams.bind ((toBreak_jams hv).self.mono (fun _ h => h) ?_) ?_
      · rintro ⟨l, t, k1, k2, k3⟩
        exact ⟨l, t, k1 ▸ h hc.1 hc.2, k2, k3⟩
      rintro c1 ⟨h1, hv1, -⟩
      refine (eatBreak_jams hv1).self.bind ?_
      rintro ⟨c2, k1⟩ ⟨h2, hv2⟩
      simp only at hv2
      refine ((scanIndent_jams hv2).and (indent_faults hn hc.1 (h hc.1 hc.2) h1 h2).1).bind ?_
      rintro ⟨c3, k⟩ ⟨hv3, h4⟩
      exact ih hv3 h4
    · exact .ok hv

theorem blockLazyLoop_took {n fuel : Nat} {c : Cur} (hf : c.buf.length < fuel) :
    Out.Par (blockLazyLoop opts n fuel c) (fun c' => ∃ p, c.buf = p ++ c'.buf) :=
  fun c' h => (((blockLazyLoop_sat (P := True) (.inl trivial) hf).par) c' h).suffix

/-! ### The end -/

theorem utf8_jams {x : Str} (h : Ascii x) : Jams (fromUtf8Unwrap (ε := ScanError) x) (fun _ => True) J := by
  unfold fromUtf8Unwrap
  rw [if_pos h.validUtf8]
  exact .ok trivial

theorem Ascii.cut {x : Str} (h : Ascii x) (n : Nat) : Ascii (x.take n) := fun b hb => h b (List.mem_of_mem_take hb)

theorem chompCopy_jams {x : Str} {style : ChompStyle} {p l : Nat} (h : Ascii x) : Jams (chompCopy x style p l) (fun _ => True) J := by
  have hn : ∀ n, Ascii (List.replicate n (0x0A : Byte)) := fun n => .replicate _ (by decide)
  unfold chompCopy
  split
  · split
    · exact utf8_jams ((h.append (hn 1)).cut _)
    · exact utf8_jams (h.cut _)
  · exact utf8_jams (h.cut _)
  · exact utf8_jams (h.append (hn _))

/-- Chomping a borrowed line. -/
theorem chompOne_jams {ch : Chomping} {pre l u : Str} {cur : Cur} {m : Nat} (hl : Ascii l) (hu : validUtf8 u = true)
    (hm : 0 < m → ∃ w v, u = w ++ v ∧ BreakBefore w v) :
    Jams (scanChomp (pre ++ (l ++ u)) (chompStyle ch) ⟨cur, [], true, pre.length, pre.length + l.length, m⟩) (fun _ => True)
      (∃ w v, u = w ++ v ∧ BreakBefore w v ∧ (ch = .clip ∧ (w = [0x0A] ∨ w = [0x0D]) ∧ (∃ b v', v = b :: v' ∧ 0x80 ≤ b) ∨
        ch = .keep ∧ m = 1 ∧ ∃ b w', w = b :: w' ∧ 0x80 ≤ b)) := by
  have cut : ∀ {J : Prop} (k : Nat), k ≤ u.length → validUtf8 (u.drop k) = true →
      Jams (slice (ε := ScanError) (pre ++ (l ++ u)) pre.length (pre.length + l.length + k)) (fun _ => True) J := by
    intro J k hk h
    refine (slice_jams (p := pre) (q := l ++ u.take k) (t := u.drop k) (by simp) rfl (by simp; omega) ?_ h).post fun _ _ => trivial
    rw [List.append_assoc, List.take_append_drop, validUtf8_append hl.validUtf8]
    exact hu
  unfold scanChomp
  rw [if_pos rfl]
  cases ch with
  | strip =>
    simp only [chompStyle, chompBorrow, reduceCtorEq, decide_false, Bool.false_and, Bool.false_eq_true, ↓reduceIte]
    exact cut 0 (by simp) hu
  | clip =>
    simp only [chompStyle, chompBorrow, reduceCtorEq, decide_false, Bool.false_and, Bool.false_eq_true, ↓reduceIte]
    split
    · rename_i h0
      obtain ⟨w, v, hwv, hw⟩ := hm h0
      refine (slice_jams (p := pre ++ l) (q := u) (t := []) (by simp) (by simp) (by simp; omega) (by simpa using hu) rfl).bind fun rest hr => ?_
      rw [hr, widthOf_eq]
      have hv : validUtf8 v = true := break_valid hw (hwv ▸ hu)
      by_cases hj : (w = [0x0A] ∨ w = [0x0D]) ∧ ∃ b v', v = b :: v' ∧ 0x80 ≤ b
      · exact ⟨fun _ _ => trivial, fun _ => ⟨w, v, hwv, hw, .inl ⟨by trivial, hj⟩⟩⟩
      · have none : secondLen u = 0 → secondLen u ≤ u.length ∧ validUtf8 (u.drop (secondLen u)) = true := fun h => by rw [h]; exact ⟨by simp, hu⟩
        have one : ∀ x : Byte, w = [x] → (w = [0x0A] ∨ w = [0x0D]) → secondLen u ≤ u.length ∧ validUtf8 (u.drop (secondLen u)) = true := by
          intro x h hx
          cases hv' : v with
          | nil => exact none (by rw [hwv, hv', h]; rfl)
          | cons b t =>
            have hb : b < 0x80 := by
              refine Nat.lt_of_not_le fun hb => hj ⟨hx, b, t, hv', hb⟩
            have : secondLen u = 1 := by rw [hwv, hv', h]; simp [secondLen, charLen, hb]
            rw [this, hwv, h]
            exact ⟨by simp, hv⟩
        suffices h : secondLen u ≤ u.length ∧ validUtf8 (u.drop (secondLen u)) = true from cut _ h.1 h.2
        have hw' := hw.1
        simp only [lineBreaks, List.mem_cons, List.not_mem_nil, or_false] at hw'
        rcases hw' with h | h | h | h | h | h
        · have : secondLen u = 1 := by rw [hwv, h]; rfl
          rw [this, hwv, h]
          refine ⟨by simp, ?_⟩
          simp only [List.cons_append, List.nil_append, List.drop_succ_cons, List.drop_zero]
          rw [validUtf8_cons (by decide)]
          exact hv
        · exact one _ h (.inr h)
        · exact one _ h (.inl h)
        · exact none (by rw [hwv, h]; rfl)
        · exact none (by rw [hwv, h]; rfl)
        · exact none (by rw [hwv, h]; rfl)
    · exact cut 0 (by simp) hu
  | keep =>
    simp only [chompStyle, decide_true, Bool.true_and, decide_eq_true_eq]
    split
    · refine Jams.bind (Q := fun r => Ascii r) ?_ fun r hr => chompCopy_jams ?_
      · refine (slice_jams (p := pre) (q := l) (t := u) rfl rfl rfl ?_ hu).post ?_
        · rw [validUtf8_append hl.validUtf8]; exact hu
        · rintro _ rfl; exact hl
      · exact (Ascii.append .nil hr).append (.replicate _ (by decide))
    · rename_i h1
      simp only [chompBorrow]
      by_cases h0 : m = 0
      · subst h0; exact cut 0 (by simp) hu
      · have : m = 1 := by omega
        subst this
        obtain ⟨w, v, hwv, hw⟩ := hm (by omega)
        have hv : validUtf8 v = true := break_valid hw (hwv ▸ hu)
        obtain ⟨x, w', hx, -⟩ := before_head hw
        by_cases h8 : x < 0x80
        · refine cut 1 (by rw [hwv, hx]; simp) ?_
          rw [hwv, hx] at hu ⊢
          exact valid_tail hu h8
        · exact ⟨fun _ _ => trivial, fun _ => ⟨w, v, hwv, hw, .inr ⟨by trivial, by trivial, x, w', hx, by byte_omega⟩⟩⟩

theorem linesText_breaks {n k : Nat} {s l r : Str} (h : LinesText n s l [] k r) (hk : 0 < k) : ∃ w v, s = l ++ (w ++ v) ∧ BreakBefore w v := by
  cases h with
  | eof => omega
  | last hl hw => exact ⟨_, _, rfl, hw⟩

/-- What comes before the lines. -/
theorem blockIndent_jams {base : Nat} {ex : Option Nat} {c1 : Cur} (hv : validUtf8 c1.buf = true) :
    Jams (blockIndent opts ex base c1) (fun d => blockIndent opts ex base c1 = .ok d ∧ validUtf8 d.cur.buf = true) J := by
  refine Jams.self ?_
  unfold blockIndent
  split
  · exact .ok hv
  · unfold detectIndent
    exact (detectLoop_jams (by exact hv)).bind fun st h => .ok h

theorem blockIndent_means {base : Nat} {c1 : Cur} {d1 : DetectSt} (h0 : c1.stats.column = 0) (h : blockIndent opts none base c1 = .ok d1) :
    ∃ e k q, Lead 0 c1.buf e k d1.cur.stats.column d1.cur.buf ∧ d1.indent = max k (base + 1) ∧ Took c1 d1.cur q ∧ d1.lines = e ∧
      (d1.canBorrow = true → (e = 0 ∨ d1.cur.stats.column = 0) ∧ FirstLine c1.buf d1.cur.buf) := by
  simp only [blockIndent, detectIndent] at h
  obtain ⟨d, h5, h2⟩ := Out.bind_eq_ok.1 h
  cases h2
  obtain ⟨e, k, q, f1, f2, f3, f4, f5⟩ := detectLoop_means (fun _ => .inl rfl) h5
  simp only [Nat.zero_add, h0] at f1 f2 f3 f4
  refine ⟨e, k, q, f1, ?_, f2, f3, fun hb => ⟨?_, ?_⟩⟩
  · simp only
    rw [f4]
    split <;> omega
  · rw [← f3]; exact f5 hb
  · obtain ⟨-, a, q', e1, e2, -⟩ := detectLoop_borrows h5 hb
    exact ⟨a, q', e1, e2⟩

theorem scanBlockLazy_jams {base : Nat} {fold : Bool} {b : Byte} {s : Str} {m : MStats} (hv : validUtf8 (b :: s) = true) (hb : b < 0x80) :
    Jams (scanBlockLazy opts base fold ⟨b :: s, m⟩) (fun r => validUtf8 r.2.buf = true) (BlockJam true base s) := by
  unfold scanBlockLazy
  refine (blockHeader_jams hv hb).bind ?_
  rintro ⟨ch, ex, c1⟩ ⟨h1, hv1⟩
  obtain ⟨k, d, p, g1, rfl, g3, g4, g5, g6⟩ := blockHeader_means rfl h1
  simp only at hv1 ⊢
  refine (blockIndent_jams hv1).bind ?_
  rintro di ⟨h2, hv2⟩
  have tail : ∀ c2 : Cur, (∃ p, b :: s = p ++ c2.buf) → validUtf8 c2.buf = true →
      Jams (do
        let r ← slice (b :: s) 0 ((b :: s).length - c2.buf.length)
        .ok (Lazy.block opts r m base fold, c2)) (fun r => validUtf8 r.2.buf = true) (BlockJam true base s) := by
    rintro c2 ⟨p, hp⟩ hv2
    refine (slice_jams (p := []) (q := p) (t := c2.buf) hp rfl ?_ (hp ▸ hv) hv2).bind fun _ _ => .ok hv2
    rw [hp]; simp
  cases ex with
  | some i =>
    cases h2
    obtain ⟨w, bl, cm, b', -, hm, -⟩ := g1
    have hi := explicit_some hm.2 g3.symm
    rw [blockLazyLoop, if_neg (by simp [g6]; omega), Out.ok_bind]
    exact tail _ ⟨p, g4.1⟩ hv2
  | none =>
    have hd := explicit_none g3.symm
    obtain ⟨e, k1, q, f1, f2, f3, -, -⟩ := blockIndent_means g6 h2
    by_cases hc : di.cur.stats.column = di.indent
    · have hlt : di.cur.buf.length < (b :: s).length + 1 := by
        have h3 := g4.1
        simp only at h3
        rw [h3, f3.1]
        simp only [List.length_append]
        omega
      refine Jams.bind ((((blockLazyLoop_jams (u := di.cur.buf) (by omega) hv2 (fun _ _ => .start)).and (blockLazyLoop_took hlt)).mono (fun _ h => h) ?_)) ?_
      · rintro ⟨l, v, j1, j2, j3⟩
        rw [hc] at f1
        exact .wide g1 hd f1 f2 j1 j2 j3
      · rintro c2 ⟨hv3, r, hr⟩
        exact tail _ ⟨p ++ (q ++ r), by rw [List.append_assoc, List.append_assoc, ← hr, ← f3.1]; exact g4.1⟩ hv3
    · rw [blockLazyLoop, if_neg (by simp [hc]), Out.ok_bind]
      exact tail _ ⟨p ++ q, by rw [List.append_assoc, ← f3.1]; exact g4.1⟩ hv2

theorem scanBlockEager_jams {base : Nat} {fold : Bool} {b : Byte} {s : Str} {m : MStats} (hv : validUtf8 (b :: s) = true) (hb : b < 0x80) :
    Jams (scanBlockEager opts base fold ⟨b :: s, m⟩) (fun _ => True) (BlockJam false base s) := by
  rw [scanBlockEager_eq]
  refine (blockHeader_jams hv hb).bind ?_
  rintro ⟨ch, ex, c1⟩ ⟨h1, hv1⟩
  obtain ⟨k, d, p, g1, rfl, g3, g4, g5, g6⟩ := blockHeader_means rfl h1
  simp only at hv1 ⊢
  cases ex with
  | some i =>
    refine ⟨fun _ _ => trivial, fun _ => ?_⟩
    cases d with
    | none => cases g3
    | some x =>
      refine .digit rfl g1 ?_
      rintro rfl
      simp [explicitOf] at g3
  | none =>
    have hd := explicit_none g3.symm
    refine (blockIndent_jams hv1).bind ?_
    rintro di ⟨h2, hv2⟩
    obtain ⟨e, k1, q, f1, f2, f3, f4, f5⟩ := blockIndent_means g6 h2
    have htook := g4.trans f3
    by_cases hs : di.cur.stats.column ≠ di.indent ∨ di.cur.buf = []
    · rw [blockLoop, if_neg (by
        rcases hs with h | h
        · simp [h]
        · simp [h]), Out.ok_bind]
      cases hcb : di.canBorrow with
      | true =>
        refine ⟨fun _ _ => trivial, fun _ => .empty rfl g1 hd f1 ?_ (f5 hcb).2⟩
        rw [← f2]; exact hs
      | false =>
        simp only [scanChomp, Bool.false_eq_true, ↓reduceIte]
        exact (chompCopy_jams (.replicate _ (by decide))).bind fun _ _ => .ok trivial
    · simp only [not_or, ne_eq, Decidable.not_not] at hs
      have hn : 0 < di.indent := by omega
      have hrd : di.cur.stats.read = m.read + (p ++ q).length := htook.2
      have hst : di.cur.stats.read - m.read = (p ++ q).length := by rw [hrd]; omega
      rw [hst]
      refine Jams.bind ((blockLoop_jams (u := di.cur.buf) hn hv2 (fun _ _ => .start) ⟨?_, ?_⟩).self.mono (fun _ h => h) ?_) ?_
      · simp only
        split
        · exact .nil
        · exact .replicate _ (by decide)
      · intro hcb
        refine .inl ⟨p ++ q, htook.1, ?_, by simp [g5], hrd, rfl, rfl⟩
        have hcb : di.canBorrow = true := hcb
        simp [hcb]
      · rintro ⟨l, v, j1, j2, j3⟩
        rw [hs.1] at f1
        exact .wide g1 hd f1 f2 j1 j2 j3
      rintro st ⟨h3, ha, hh⟩
      refine Jams.bind (Q := fun _ => True) ?_ fun _ _ => .ok trivial
      have copied : st.canBorrow = false → Jams (scanChomp (b :: s) (chompStyle k) st) (fun _ => True) (BlockJam false base s) := by
        intro hcb
        rw [scanChomp, if_neg (by simp [hcb])]
        exact chompCopy_jams ha
      cases hcb : di.canBorrow with
      | false =>
        simp only [hcb, Bool.false_eq_true, ↓reduceIte] at h3
        obtain ⟨l, ls, m', e1, e2⟩ := blockLoop_lines hn hs.1 hs.2 h3
        exact copied (by rw [e2]; rfl)
      | true =>
        have he0 : e = 0 := by
          rcases (f5 hcb).1 with h | h
          · exact h
          · omega
        subst he0
        simp only [hcb, ↓reduceIte] at h3
        obtain ⟨l, ls, m', u, e1, e2, e3⟩ := blockLoop_borrowed hn hs.1 hs.2 htook.1 hrd (by simp [g5]) h3
        rcases e3 with ⟨rfl, e3, e4⟩ | ⟨-, e4⟩
        · have hb1 : st.canBorrow = true := by rw [e4]
          have hst1 : st.start = (p ++ q).length := by rw [e4]
          have hst2 : st.stop = (p ++ q).length + l.length := by rw [e4]
          have hbase : b :: s = (p ++ q) ++ (l ++ u) := by rw [← e2]; exact htook.1
          rcases hh hb1 with ⟨p', -, -, -, -, -, h0⟩ | ⟨⟨p', q', t', k1, k2, k3, k4, k5⟩, -⟩
          · exfalso
            have : 0 < (p ++ q).length := by
              cases p with
              | nil => exact absurd rfl g5
              | cons _ _ => simp
            omega
          · obtain ⟨rfl, k6⟩ := List.append_inj (k1.symm.trans hbase) (by omega)
            obtain ⟨rfl, rfl⟩ := List.append_inj k6 (by omega)
            rw [e4, hbase]
            refine (chompOne_jams k4 k5 ?_).mono (fun _ h => h) ?_
            · intro hm
              obtain ⟨w, v, j1, j2⟩ := linesText_breaks e1 hm
              exact ⟨w, v, List.append_cancel_left (e2.symm.trans j1), j2⟩
            · rintro ⟨w, v, rfl, j2, ⟨rfl, j3, j4⟩ | ⟨rfl, rfl, j3⟩⟩
              · rw [f2] at e1
                rw [hs.1, f2] at f1
                exact .clip rfl g1 hd f1 rfl e2 e1 j3 j4
              · rw [f2] at e1
                rw [hs.1, f2] at f1
                exact .keep rfl g1 hd f1 rfl e2 e1 j2 j3
        · exact copied (by rw [e4]; rfl)

theorem blockLoop_valid {base : Str} {read : Nat} {fold : Bool} {n fuel : Nat} {st : BlockSt} (hv : validUtf8 st.cur.buf = true) :
    Jams (blockLoop opts base read fold n fuel st) (fun st' => validUtf8 st'.cur.buf = true) True := by
  induction fuel generalizing st with
  | zero => exact .diverge
  | succ fuel ih =>
    rw [blockLoop]
    split
    · refine Jams.bind (Q := fun st' => st'.cur = st.cur) ?_ ?_
      · unfold BlockSt.trapdoor
        split
        · exact Jams.bind (Q := fun _ => True) ⟨fun _ _ => trivial, fun _ => trivial⟩ fun _ _ => .ok rfl
        · exact .ok rfl
      intro st1 e1
      refine cache_jam ?_
      rw [e1]
      refine ((toBreak_jams hv).mono (fun _ h => h) fun _ => trivial).bind fun c1 h1 => ?_
      refine (eatBreak_jams h1.1).bind fun r h2 => ?_
      refine (scanIndent_jams h2).bind fun r' h3 => ?_
      exact ih h3
    · exact .ok hv

theorem scanBlockEager_valid {base : Nat} {fold : Bool} {b : Byte} {s : Str} {m : MStats} (hv : validUtf8 (b :: s) = true) (hb : b < 0x80) :
    Jams (scanBlockEager opts base fold ⟨b :: s, m⟩) (fun r => validUtf8 r.2.buf = true) True := by
  rw [scanBlockEager_eq]
  refine ((blockHeader_jams (base := 0) (lazy := true) hv hb).mono (fun _ h => h) fun _ => trivial).bind ?_
  rintro ⟨ch, ex, c1⟩ ⟨-, hv1⟩
  refine (blockIndent_jams hv1).bind ?_
  rintro di ⟨-, hv2⟩
  refine (blockLoop_valid (by exact hv2)).bind fun st h => ?_
  exact Jams.bind (Q := fun _ => True) ⟨fun _ _ => trivial, fun _ => trivial⟩ fun _ _ => .ok h

theorem scanBlock_jams {base : Nat} {fold : Bool} {b : Byte} {s : Str} {m : MStats} (hv : validUtf8 (b :: s) = true) (hb : b < 0x80) :
    Jams (scanBlock opts base fold ⟨b :: s, m⟩) (fun r => validUtf8 r.2.buf = true) (BlockJam opts.lazy base s) := by
  unfold scanBlock
  cases opts.lazy with
  | true => exact (scanBlockLazy_jams hv hb).bind fun _ h => .ok h
  | false => exact ((scanBlockEager_jams hv hb).and (scanBlockEager_valid hv hb).1).bind fun _ h => .ok h.2

end Yary
