import Verif.Proof.Scan.Faults

/-! # Scan errors name what is wrong: block scalars -/

namespace Yary

open Spec Blocks

variable {opts : SFlags} {F : ScanError → Prop}

theorem Faults.self {α : Type} {x : Out ScanError α} {Q : α → Prop} (h : Faults opts x Q F) : Faults opts x (fun a => x = .ok a) F :=
  ⟨fun _ h => h, h.2⟩

/-! ### The header -/

theorem skipBlanksLoop_faults {fuel : Nat} {c : Cur} : Faults opts (skipBlanksLoop opts fuel c) (fun c' => skipBlanksLoop opts fuel c = .ok c') F := by
  suffices h : Faults opts (skipBlanksLoop opts fuel c) (fun _ => True) F from h.self
  induction fuel generalizing c with
  | zero => exact .diverge
  | succ fuel ih =>
    rw [skipBlanksLoop]
    split
    · exact (cache_faults _ _).bind fun _ _ => adv_faults.bind fun _ _ => ih
    · exact .ok trivial

theorem toBreak_faults {fuel : Nat} {c : Cur} : Faults opts (toBreak opts fuel c) (fun c' => toBreak opts fuel c = .ok c') F := by
  suffices h : Faults opts (toBreak opts fuel c) (fun _ => True) F from h.self
  induction fuel generalizing c with
  | zero => exact .diverge
  | succ fuel ih =>
    rw [toBreak]
    split
    · exact .ok trivial
    · exact (cache_faults _ _).bind fun _ _ => adv_faults.bind fun _ _ => ih

/-- The number of indicators that are read. -/
def marksLen (s : Str) : Nat :=
  if (if headerHas s b! '+' then ChompStyle.Keep else if headerHas s b! '-' then .Strip else .Clip) = .Clip then (if (headerDigit s).isSome then 1 else 0)
  else (if (headerDigit s).isSome then 1 else 0) + 1

theorem isMark_of {x : Byte} (h : isDigit x = true ∨ x = b! '+' ∨ x = b! '-') : IsMark x := by
  rcases h with h | h
  · exact .inl (isDigit_iff.1 h)
  · exact .inr h

theorem marksLen_eq {w r : Str} {k : Chomping} {d : Option Byte} (hm : Marks w k d) (hr : ∀ x t, r = x :: t → ¬ IsMark x)
    (hs : ∀ x y t, w ++ r = x :: y :: t → ¬ IsMark x → ¬ IsMark y) : marksLen (w ++ r) = w.length := by
  have hr' : ∀ x t, r = x :: t → isDigit x = false ∧ x ≠ b! '+' ∧ x ≠ b! '-' := by
    intro x t h
    refine ⟨?_, fun e => hr x t h (.inr (.inl e)), fun e => hr x t h (.inr (.inr e))⟩
    cases hd : isDigit x with
    | false => rfl
    | true => exact absurd (.inl (isDigit_iff.1 hd)) (hr x t h)
  have hp := Blocks.signs_not_digits.1
  have hq := Blocks.signs_not_digits.2
  have hpq : (b! '+' : Byte) ≠ b! '-' := by decide
  have hqp : (b! '-' : Byte) ≠ b! '+' := by decide
  obtain ⟨hw, hd⟩ := hm
  have dig : ∀ x ∈ d, isDigit x = true ∧ x ≠ b! '+' ∧ x ≠ b! '-' := by
    intro x hx
    have := isDigit_iff.2 (hd x hx)
    refine ⟨this, ?_, ?_⟩
    · rintro rfl; rw [hp] at this; cases this
    · rintro rfl; rw [hq] at this; cases this
  generalize hP : (b! '+' : Byte) = P at *
  generalize hM : (b! '-' : Byte) = M at *
  have hmark : k.mark = [] ∨ k.mark = [P] ∨ k.mark = [M] := by
    subst hP hM
    cases k <;> simp [Chomping.mark]
  unfold marksLen
  rw [hP, hM]
  cases d with
  | none =>
    have hw : w = k.mark := by simpa using hw
    subst hw
    rcases hmark with h | h | h
    · rw [h] at hs ⊢
      simp only [List.nil_append, List.length_nil] at hs ⊢
      match r, hr', hs, hr with
      | [], _, _, _ => simp [headerHas, headerDigit, startsWith]
      | [x], hr', _, _ =>
        obtain ⟨h1, h2, h3⟩ := hr' x [] rfl
        simp [headerHas, headerDigit, startsWith, h1, h2, h3]
      | x :: y :: t, hr', hs, hr =>
        obtain ⟨h1, h2, h3⟩ := hr' x _ rfl
        have hy := hs x y t rfl (hr x _ rfl)
        have y1 : isDigit y = false := by
          cases hd : isDigit y with
          | false => rfl
          | true => exact absurd (.inl (isDigit_iff.1 hd)) hy
        have y2 : y ≠ P := fun e => hy (.inr (.inl (by rw [e, hP])))
        have y3 : y ≠ M := fun e => hy (.inr (.inr (by rw [e, hM])))
        simp [headerHas, headerDigit, startsWith, h1, h2, h3, y1, y2, y3]
    · rw [h]
      cases r with
      | nil => simp [headerHas, headerDigit, startsWith, hp]
      | cons x t =>
        obtain ⟨h1, h2, h3⟩ := hr' x _ rfl
        simp [headerHas, headerDigit, startsWith, h1, hp]
    · rw [h]
      cases r with
      | nil => simp [headerHas, headerDigit, startsWith, hq, hqp]
      | cons x t =>
        obtain ⟨h1, h2, h3⟩ := hr' x _ rfl
        simp [headerHas, headerDigit, startsWith, h1, h2, h3, hq, hqp]
  | some z =>
    obtain ⟨z1, z2, z3⟩ := dig z rfl
    rcases hmark with h | h | h <;> rw [h] at hw <;> rcases hw with rfl | rfl <;> cases r with
    | nil => simp [headerHas, headerDigit, startsWith, z1, z2, z3, hp, hq, hpq, hqp]
    | cons x t =>
      obtain ⟨h1, h2, h3⟩ := hr' x _ rfl
      simp [headerHas, headerDigit, startsWith, z1, z2, z3, hp, hq, hpq, hqp, h1, h2, h3]

theorem isMark_plain {x : Byte} (h : IsMark x) : x ≠ 0x20 ∧ x ≠ 0x09 ∧ x ≠ b! '#' ∧ x ≠ 0x0A ∧ x ≠ 0x0D ∧ x ≠ 0xC2 ∧ x ≠ 0xE2 := by
  rcases h with h | rfl | rfl
  · have := isDigit_iff.2 h
    refine ⟨?_, ?_, ?_, ?_, ?_, ?_, ?_⟩ <;> (rintro rfl; revert this; decide)
  · decide
  · decide

theorem break_bytes {b r : Str} (h : BreakBefore b r) : ∃ x u, b = x :: u ∧ (x = 0x0A ∨ x = 0x0D ∨ x = 0xC2 ∨ x = 0xE2) := by
  have hw := h.1
  simp only [lineBreaks, List.mem_cons, List.not_mem_nil, or_false] at hw
  rcases hw with rfl | rfl | rfl | rfl | rfl | rfl
  · exact ⟨_, _, rfl, .inr (.inl rfl)⟩
  · exact ⟨_, _, rfl, .inr (.inl rfl)⟩
  · exact ⟨_, _, rfl, .inl rfl⟩
  · exact ⟨_, _, rfl, .inr (.inr (.inl rfl))⟩
  · exact ⟨_, _, rfl, .inr (.inr (.inr rfl))⟩
  · exact ⟨_, _, rfl, .inr (.inr (.inr rfl))⟩

/-- What follows the blanks of the header. -/
theorem tail_head {cm b r : Str} (h3 : cm = [] ∨ ∃ l, cm = b! '#' :: l ∧ RestOfLine l (b ++ r)) (h4 : b = [] ∧ r = [] ∨ BreakBefore b r) :
    ∀ x u, cm ++ (b ++ r) = x :: u → x = b! '#' ∧ (∃ l, cm = b! '#' :: l) ∨ x = 0x0A ∨ x = 0x0D ∨ x = 0xC2 ∨ x = 0xE2 := by
  intro x u h
  rcases h3 with rfl | ⟨l, rfl, -⟩
  · rcases h4 with ⟨rfl, rfl⟩ | h4
    · simp at h
    · obtain ⟨y, v, rfl, hy⟩ := break_bytes h4
      simp only [List.nil_append, List.cons_append, List.cons.injEq] at h
      rw [← h.1]; exact .inr hy
  · simp only [List.cons_append, List.cons.injEq] at h
    exact .inl ⟨h.1.symm, l, rfl⟩

theorem blockHeader_faults {b : Byte} {s : Str} {m : MStats} {base : Nat} :
    Faults opts (blockHeader opts ⟨b :: s, m⟩) (fun x => blockHeader opts ⟨b :: s, m⟩ = .ok x) (fun e => BlockFault base e s) := by
  suffices h : Faults opts (blockHeader opts ⟨b :: s, m⟩) (fun _ => True) (fun e => BlockFault base e s) from h.self
  unfold blockHeader
  refine (cache_faults _ _).bind fun _ _ => adv_faults.bind ?_
  rintro _ rfl
  simp only [List.drop_succ_cons, List.drop_zero]
  refine Faults.bind (Q := fun x => x.2.2.buf = s.drop (marksLen s)) ?_ ?_
  · unfold scanHeaders
    refine (cache_faults _ _).bind fun _ _ => adv_faults.bind ?_
    rintro _ rfl
    exact .ok rfl
  rintro ⟨ch, ex, c2⟩ h2
  simp only at h2
  refine Faults.bind (Q := fun c' => skipBlanks opts c2 = .ok c') (Faults.self (Q := fun _ => True) ?_) ?_
  · unfold skipBlanks
    refine (cache_faults _ _).bind fun _ _ => skipBlanksLoop_faults.bind fun _ _ => ?_
    split
    · exact toBreak_faults.mono (fun _ _ => trivial) fun _ h => h
    · exact .ok trivial
  intro c4 h4
  refine (cache_faults _ _).bind fun _ _ => ?_
  split
  · rename_i hw
    refine .err ?_
    by_cases hS : ∃ x y t, s = x :: y :: t ∧ ¬ IsMark x ∧ IsMark y
    · obtain ⟨x, y, t, rfl, hx, hy⟩ := hS
      exact .second hx hy
    · refine .header ?_
      rintro k d r ⟨w, bl, cm, br, rfl, k1, k2, k3, k4⟩
      have kh := tail_head k3 k4
      have hmark : ∀ x t, bl ++ (cm ++ (br ++ r)) = x :: t → ¬ IsMark x := by
        intro x t h hx
        obtain ⟨p1, p2, p3, p4, p5, p6, p7⟩ := isMark_plain hx
        cases bl with
        | nil =>
          rcases kh x t (by simpa using h) with ⟨h, -⟩ | h | h | h | h
          · exact p3 h
          · exact p4 h
          · exact p5 h
          · exact p6 h
          · exact p7 h
        | cons y bl =>
          simp only [List.cons_append, List.cons.injEq] at h
          rcases k2 y (by simp) with e | e
          · exact p1 (h.1 ▸ e)
          · exact p2 (h.1 ▸ e)
      have hlen := marksLen_eq k1 hmark (fun x y t h hx hy => hS ⟨x, y, t, h, hx, hy⟩)
      rw [hlen, List.drop_left] at h2
      -- the rest of the line
      unfold skipBlanks at h4
      obtain ⟨_, -, h4⟩ := Out.bind_eq_ok.1 h4
      obtain ⟨c3, h3, h4⟩ := Out.bind_eq_ok.1 h4
      obtain ⟨bl', g1, g2, g3⟩ := skipBlanksLoop_means h3
      have g1' := h2.symm.trans g1.1
      obtain ⟨-, e⟩ := span_unique (P := fun x => x = 0x20 ∨ x = 0x09) g1' k2 g2 (by
        intro x u hx h
        rcases kh x u hx with ⟨rfl, -⟩ | rfl | rfl | rfl | rfl <;> revert h <;> decide) (by
        intro x u hx h
        rw [hx] at g3
        rcases h with rfl | rfl <;> simp [isBlank, startsWith] at g3)
      have hz : isWhiteSpaceZ c4.buf = true := by
        split at h4
        · obtain ⟨l, -, f2, -⟩ := toBreak_means h4
          rcases f2.2 with h | h
          · rw [h]; rfl
          · simp [isWhiteSpaceZ, atBreak_iff.1 h]
        · rename_i hns
          cases h4
          rw [← e]
          rcases k3 with rfl | ⟨l, rfl, -⟩
          · rcases k4 with ⟨rfl, rfl⟩ | k4
            · rfl
            · simp [isWhiteSpaceZ, atBreak_iff.1 (before_at k4)]
          · rw [← e] at hns
            simp [startsWith] at hns
      rw [hz] at hw
      cases hw
  · exact line_faults.bind fun _ _ => .ok trivial

/-! ### The indentation -/

theorem detectBlanks_faults {s0 : Str} {fuel : Nat} {st : DetectSt} (h : SpacesTo s0 st.cur.buf) :
    Faults opts (detectBlanks opts fuel st) (fun st' => detectBlanks opts fuel st = .ok st' ∧ SpacesTo s0 st'.cur.buf)
      (fun e => e = .InvalidTab ∧ ∃ r, SpacesTo s0 (0x09 :: r)) := by
  suffices hh : Faults opts (detectBlanks opts fuel st) (fun st' => SpacesTo s0 st'.cur.buf) (fun e => e = .InvalidTab ∧ ∃ r, SpacesTo s0 (0x09 :: r)) from
    ⟨fun a ha => ⟨ha, hh.1 a ha⟩, hh.2⟩
  induction fuel generalizing st with
  | zero => exact .diverge
  | succ fuel ih =>
    rw [detectBlanks]
    split
    · rename_i hb
      obtain ⟨b, t, hc, hb⟩ := blank_cases hb
      refine (cache_faults _ _).bind fun _ _ => ?_
      rw [hc] at h
      split
      · rename_i ht
        have : b = 0x09 := by simpa [hc, startsWith] using ht
        subst this
        exact .err ⟨rfl, t, h⟩
      · rename_i ht
        refine adv_faults.bind ?_
        rintro _ rfl
        refine ih ?_
        have : b = 0x20 := by
          rcases hb with hb | hb
          · exact hb
          · simp [hc, startsWith, hb] at ht
        subst this
        simp only [hc, List.drop_succ_cons, List.drop_zero]
        exact .space h
    · exact .ok h

theorem detectLoop_faults {s0 : Str} {fuel : Nat} {st : DetectSt} (h : SpacesTo s0 st.cur.buf) :
    Faults opts (detectLoop opts fuel st) (fun st' => detectLoop opts fuel st = .ok st') (fun e => e = .InvalidTab ∧ ∃ r, SpacesTo s0 (0x09 :: r)) := by
  suffices hh : Faults opts (detectLoop opts fuel st) (fun _ => True) (fun e => e = .InvalidTab ∧ ∃ r, SpacesTo s0 (0x09 :: r)) from hh.self
  induction fuel generalizing st with
  | zero => exact .diverge
  | succ fuel ih =>
    rw [detectLoop]
    refine (cache_faults _ _).bind fun _ _ => (detectBlanks_faults h).bind ?_
    rintro st1 ⟨-, h1⟩
    generalize (if st1.cur.stats.column > st1.indent then st1.cur.stats.column else st1.indent) = i
    refine (cache_faults _ _).bind fun _ _ => ?_
    split
    · rename_i hb
      refine line_faults.bind ?_
      intro c hc
      obtain ⟨w, t, g1, g2, g3, -, -⟩ := line_took hb hc
      refine ih ?_
      simp only at g2 ⊢
      rw [g3]
      exact .line (g2 ▸ h1) g1
    · exact .ok trivial

theorem scanIndentLoop_faults {n fuel l : Nat} {c : Cur} : Faults opts (scanIndentLoop opts n fuel c l) (fun r => scanIndentLoop opts n fuel c l = .ok r)
    (fun e => e = .InvalidTab ∧ MarginTab n c.stats.column c.buf) := by
  suffices hh : Faults opts (scanIndentLoop opts n fuel c l) (fun _ => True) (fun e => e = .InvalidTab ∧ MarginTab n c.stats.column c.buf) from hh.self
  induction fuel generalizing c l with
  | zero => exact .diverge
  | succ fuel ih =>
    rw [scanIndentLoop]
    split
    · rename_i hw
      simp only [Bool.and_eq_true, decide_eq_true_eq] at hw
      obtain ⟨hlt, hw⟩ := hw
      split
      · rename_i hs
        obtain ⟨t, ht⟩ : ∃ t, c.buf = 0x20 :: t := by
          cases hb : c.buf with
          | nil => rw [hb] at hs; cases hs
          | cons b t => rw [hb] at hs; simp [startsWith] at hs; exact ⟨t, by rw [hs]⟩
        refine adv_faults.bind ?_
        rintro _ rfl
        refine (cache_faults _ _).bind fun _ _ => ih.mono (fun _ h => h) ?_
        rintro e ⟨rfl, h⟩
        refine ⟨rfl, ?_⟩
        rw [ht]
        simp only [ht, List.drop_succ_cons, List.drop_zero, MStats.update, ↓reduceIte] at h
        exact .space hlt h
      · rename_i hs
        split
        · rename_i htab
          obtain ⟨t, ht⟩ : ∃ t, c.buf = 0x09 :: t := by
            cases hb : c.buf with
            | nil => rw [hb] at htab; cases htab
            | cons b t => rw [hb] at htab; simp [startsWith] at htab; exact ⟨t, by rw [htab]⟩
          rw [ht]
          exact .err ⟨rfl, .tab hlt⟩
        · rename_i htab
          have hb : isBreak c.buf = true := by
            simp only [isWhiteSpace, isBlank, Bool.or_eq_true] at hw
            rcases hw with (hw | hw) | hw
            · exact absurd hw hs
            · exact absurd hw htab
            · exact hw
          refine line_faults.bind ?_
          intro c' hc
          obtain ⟨w, t, g1, g2, g3, -, g5⟩ := line_took hb hc
          refine (cache_faults _ _).bind fun _ _ => ih.mono (fun _ h => h) ?_
          rintro e ⟨rfl, h⟩
          refine ⟨rfl, ?_⟩
          rw [g2]
          rw [g3, g5] at h
          exact .line hlt g1 h
    · exact .ok trivial

theorem scanIndent_faults {n l : Nat} {c : Cur} : Faults opts (scanIndent opts n c l) (fun r => scanIndent opts n c l = .ok r)
    (fun e => e = .InvalidTab ∧ MarginTab n c.stats.column c.buf ∧ c.stats.column < n) := by
  suffices hh : Faults opts (scanIndent opts n c l) (fun _ => True) (fun e => e = .InvalidTab ∧ MarginTab n c.stats.column c.buf ∧ c.stats.column < n) from hh.self
  unfold scanIndent
  split
  · exact .ok trivial
  · rename_i hc
    exact (cache_faults _ _).bind fun _ _ => scanIndentLoop_faults.mono (fun _ _ => trivial) fun e h => ⟨h.1, h.2, by omega⟩

theorem eatBreak_faults {c : Cur} {l : Nat} : Faults opts (eatBreak opts c l) (fun r => eatBreak opts c l = .ok r) F := by
  suffices hh : Faults opts (eatBreak opts c l) (fun _ => True) F from hh.self
  unfold eatBreak
  refine (cache_faults _ _).bind fun _ _ => ?_
  split
  · exact line_faults.bind fun _ _ => .ok trivial
  · exact .ok trivial

/-! ### The lines -/

/-- A tab in the indentation of a line. -/
def TabIn (n : Nat) (u : Str) : Prop :=
  ∃ l w r, InLines n u (l ++ (w ++ r)) ∧ RestOfLine l (w ++ r) ∧ BreakBefore w r ∧ MarginTab n 0 r

/-- What comes before the next line. -/
theorem indent_faults {n fuel k1 k : Nat} {u : Str} {c c1 c2 : Cur} (hn : 0 < n) (hc : c.stats.column = n) (hu : InLines n u c.buf)
    (h1 : toBreak opts fuel c = .ok c1) (h2 : eatBreak opts c1 0 = .ok (c2, k1)) :
    Faults opts (scanIndent opts n c2 k) (fun r => r.1.stats.column = n → r.1.buf ≠ [] → InLines n u r.1.buf) (fun e => e = .InvalidTab ∧ TabIn n u) := by
  obtain ⟨l, g1, g2, g3⟩ := toBreak_means h1
  unfold eatBreak at h2
  obtain ⟨_, -, h2⟩ := Out.bind_eq_ok.1 h2
  split at h2
  · rename_i hb
    obtain ⟨c2', h5, h2⟩ := Out.bind_eq_ok.1 h2
    cases h2
    obtain ⟨w, t, f1, f2, f3, f4, f5⟩ := line_took hb h5
    rw [g1.1, f2] at hu
    refine scanIndent_faults.mono ?_ ?_
    · rintro ⟨c3, k'⟩ h3 h4 -
      unfold scanIndent at h3
      rw [if_neg (by omega)] at h3
      obtain ⟨_, -, h3⟩ := Out.bind_eq_ok.1 h3
      obtain ⟨e, p, -, e2, -⟩ := scanIndentLoop_means (by omega) h3
      simp only at h4
      rw [f3, f5, h4] at e2
      exact .line hu (f2 ▸ g2) f1 e2
    · rintro e ⟨rfl, h3, -⟩
      rw [f3, f5] at h3
      exact ⟨rfl, l, w, t, hu, f2 ▸ g2, f1, h3⟩
  · rename_i hb
    cases h2
    unfold scanIndent
    rw [if_pos (by omega)]
    refine .ok fun _ h => ?_
    rcases g2.2 with h' | h'
    · exact absurd h' h
    · exact absurd (atBreak_iff.1 h') hb

theorem blockLoop_faults {base u : Str} {read : Nat} {fold : Bool} {n fuel : Nat} {st : BlockSt} (hn : 0 < n)
    (h : st.cur.stats.column = n → st.cur.buf ≠ [] → InLines n u st.cur.buf) :
    Faults opts (blockLoop opts base read fold n fuel st) (fun _ => True) (fun e => e = .InvalidTab ∧ TabIn n u) := by
  induction fuel generalizing st with
  | zero => exact .diverge
  | succ fuel ih =>
    rw [blockLoop]
    split
    · rename_i hc
      simp only [Bool.and_eq_true, decide_eq_true_eq, Bool.not_eq_true', List.isEmpty_eq_false_iff] at hc
      refine Faults.bind (Q := fun st' => st'.cur = st.cur) ?_ ?_
      · unfold BlockSt.trapdoor
        split
        · exact slice_faults.bind fun _ _ => .ok rfl
        · exact .ok rfl
      intro st1 e1
      refine (cache_faults _ _).bind fun _ _ => ?_
      rw [e1]
      refine toBreak_faults.bind fun c1 h1 => eatBreak_faults.bind ?_
      rintro ⟨c2, k1⟩ h2
      refine (indent_faults hn hc.1 (h hc.1 hc.2) h1 h2).bind ?_
      rintro ⟨c3, k⟩ h3
      exact ih h3
    · exact .ok trivial

theorem blockLazyLoop_faults {u : Str} {n fuel : Nat} {c : Cur} (hn : 0 < n) (h : c.stats.column = n → c.buf ≠ [] → InLines n u c.buf) :
    Faults opts (blockLazyLoop opts n fuel c) (fun _ => True) (fun e => e = .InvalidTab ∧ TabIn n u) := by
  induction fuel generalizing c with
  | zero => exact .diverge
  | succ fuel ih =>
    rw [blockLazyLoop]
    split
    · rename_i hc
      simp only [Bool.and_eq_true, decide_eq_true_eq, Bool.not_eq_true', List.isEmpty_eq_false_iff] at hc
      refine (cache_faults _ _).bind fun _ _ => ?_
      refine toBreak_faults.bind fun c1 h1 => eatBreak_faults.bind ?_
      rintro ⟨c2, k1⟩ h2
      refine (indent_faults hn hc.1 (h hc.1 hc.2) h1 h2).bind ?_
      rintro ⟨c3, k⟩ h3
      exact ih h3
    · exact .ok trivial

/-- What comes before the lines. -/
theorem block_faults {base : Nat} {b : Byte} {s : Str} {m : MStats} {α : Type} {f : ChompStyle → DetectSt → Out ScanError α}
    (hf : ∀ ch d, 0 < d.indent → ∀ u, (d.cur.stats.column = d.indent → d.cur.buf ≠ [] → InLines d.indent u d.cur.buf) →
      Faults opts (f ch d) (fun _ => True) (fun e => e = .InvalidTab ∧ TabIn d.indent u)) :
    Faults opts (do
      let (ch, ex, c1) ← blockHeader opts ⟨b :: s, m⟩
      let d ← blockIndent opts ex base c1
      f ch d) (fun _ => True) (fun e => BlockFault base e s) := by
  refine blockHeader_faults.bind ?_
  rintro ⟨ch, ex, c1⟩ h1
  obtain ⟨k, d, p, g1, -, g3, -, -, g6⟩ := blockHeader_means rfl h1
  unfold blockIndent
  simp only
  split
  · rename_i n
    rw [Out.ok_bind]
    have hn : 0 < n := by
      unfold explicitOf at g3
      obtain ⟨w, -, -, -, -, ⟨-, hd⟩, -⟩ := g1
      cases d with
      | none => cases g3
      | some x =>
        have := isDigit_iff.2 (hd x rfl)
        simp only [Option.bind_some] at g3
        split at g3
        · cases g3
        · rename_i hx
          cases g3
          simp only [isDigit, Bool.and_eq_true, decide_eq_true_eq] at this
          have h0 : b! '0' = 0x30 := rfl
          rw [h0] at *
          byte_omega
    have := hf ch { cur := c1, indent := base + n } (by simp only; omega) [] (by simp only [g6]; intro h; omega)
    refine this.mono (fun _ h => h) ?_
    rintro e ⟨-, l, w, r, h1, -, h3, -⟩
    exfalso
    generalize hz : l ++ (w ++ r) = z at h1
    have : z = [] := by
      clear hz
      induction h1 with
      | start => rfl
      | line _ _ hw _ ih =>
        obtain ⟨x, y, rfl, -⟩ := before_head hw
        simp at ih
    subst this
    obtain ⟨x, y, rfl, -⟩ := before_head h3
    simp at hz
  · have hd : ∀ b ∈ d, b = b! '0' := by
      rintro x ⟨⟩
      unfold explicitOf at g3
      simp only [Option.bind_some] at g3
      split at g3
      · rename_i h; exact h
      · cases g3
    unfold detectIndent
    simp only [bind_assoc, Out.ok_bind]
    refine Faults.bind ((detectLoop_faults (s0 := c1.buf) (st := { cur := c1 }) .start).mono (fun _ h => h) ?_) ?_
    · rintro e ⟨rfl, r, h⟩
      exact .leadTab g1 hd h
    · intro st h2
      obtain ⟨e, k', p, f1, -, -, f4, -⟩ := detectLoop_means (st := { cur := c1 }) (by simp) h2
      simp only [g6] at f1 f4
      have hi : (if st.indent < base + 1 then base + 1 else st.indent) = max k' (base + 1) := by
        rw [f4]; split <;> omega
      rw [hi]
      by_cases hc : st.cur.stats.column = max k' (base + 1)
      · refine (hf ch { st with indent := max k' (base + 1) } (by simp only; omega) st.cur.buf (fun _ _ => .start)).mono (fun _ h => h) ?_
        rintro e' ⟨rfl, l, w, r, t1, t2, t3, t4⟩
        rw [hc] at f1
        exact .lineTab g1 hd f1 rfl t1 t2 t3 t4
      · refine (hf ch { st with indent := max k' (base + 1) } (by simp only; omega) [] (fun h => absurd h hc)).mono (fun _ h => h) ?_
        rintro e ⟨-, l, w, r, h1, -, h3, -⟩
        exfalso
        generalize hz : l ++ (w ++ r) = z at h1
        have : z = [] := by
          clear hz
          induction h1 with
          | start => rfl
          | line _ _ hw _ ih =>
            obtain ⟨x, y, rfl, -⟩ := before_head hw
            simp at ih
        subst this
        obtain ⟨x, y, rfl, -⟩ := before_head h3
        simp at hz

theorem chompCopy_faults {x : Str} {style : ChompStyle} {p l : Nat} : Faults opts (chompCopy x style p l) (fun _ => True) F := by
  unfold chompCopy
  split
  · split <;> exact utf8_faults
  · exact utf8_faults
  · exact utf8_faults

theorem scanChomp_faults {base : Str} {style : ChompStyle} {st : BlockSt} : Faults opts (scanChomp base style st) (fun _ => True) F := by
  unfold scanChomp
  split
  · split
    · exact slice_faults.bind fun _ _ => chompCopy_faults
    · unfold chompBorrow
      split
      · split
        · exact slice_faults.bind fun _ _ => slice_faults
        · exact slice_faults
      · exact slice_faults
      · exact slice_faults
  · exact chompCopy_faults

theorem scanBlock_faults {base : Nat} {fold : Bool} {b : Byte} {s : Str} {m : MStats} :
    Faults opts (scanBlock opts base fold ⟨b :: s, m⟩) (fun _ => True) (fun e => BlockFault base e s) := by
  unfold scanBlock
  split
  · unfold scanBlockLazy
    refine Faults.bind (Q := fun _ => True) ?_ fun _ _ => .ok trivial
    refine block_faults (f := fun _ d => do
      let c2 ← blockLazyLoop opts d.indent ((b :: s).length + 1) d.cur
      let r ← slice (b :: s) 0 ((b :: s).length - c2.buf.length)
      .ok (Lazy.block opts r m base fold, c2)) ?_
    intro ch d hn u h
    exact (blockLazyLoop_faults hn h).bind fun _ _ => slice_faults.bind fun _ _ => .ok trivial
  · rw [scanBlockEager_eq]
    refine Faults.bind (Q := fun _ => True) ?_ fun _ _ => .ok trivial
    refine block_faults (f := fun ch d => do
      let st ← blockLoop opts (b :: s) m.read fold d.indent ((b :: s).length + 1)
        { cur := d.cur
          scratch := if d.canBorrow then [] else List.replicate d.lines 0x0A
          canBorrow := d.canBorrow
          start := if d.canBorrow then d.cur.stats.read - m.read else 0 }
      let r ← scanChomp (b :: s) ch st
      .ok (Token.Scalar r (blockStyle fold), st.cur)) ?_
    intro ch d hn u h
    refine (blockLoop_faults hn h).bind fun st _ => ?_
    refine Faults.bind (Q := fun _ => True) ?_ fun _ _ => .ok trivial
    exact scanChomp_faults

end Yary
