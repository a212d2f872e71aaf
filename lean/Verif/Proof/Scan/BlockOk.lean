import Verif.Spec.Language
import Verif.Proof.Scan.Suffix

/-! # Block scalars of the grammar are scanned -/

namespace Yary

theorem Reads.column_le {c c' : Cur} (h : Reads c c') : c'.stats.lines = c.stats.lines → c.stats.column ≤ c'.stats.column := by
  induction h with
  | refl => intro; exact Nat.le_refl _
  | byte hb _ ih =>
    intro hl
    have := ih (by simpa [MStats.update] using hl)
    simp only [MStats.update, ↓reduceIte] at this
    simp only
    omega
  | line hb hr ih =>
    intro hl
    have := hr.lines_le
    simp only [MStats.update] at this
    omega

end Yary

namespace Yary.Blocks

open Spec

variable {opts : SFlags}

/-! ### What can be wrong is not -/

theorem Lead.within {c e k c' : Nat} {s t r : Str} (hs : SpacesTo s t) (h : Lead c s e k c' r) : ∃ d e' k', Lead d t e' k' c' r := by
  induction hs with
  | start => exact ⟨_, _, _, h⟩
  | @space t _ ih =>
    obtain ⟨d, e', k', h⟩ := ih
    generalize hg : (0x20 : Byte) :: t = s0 at h
    cases h with
    | done hd => subst hg; exact absurd (.inl ⟨_, .inl rfl⟩) hd
    | space h => cases hg; exact ⟨_, _, _, h⟩
    | line hw _ =>
      obtain ⟨b, u, rfl, hb, -⟩ := before_head hw
      cases hg
      exact absurd rfl hb
  | @line w t _ hw ih =>
    obtain ⟨d, e', k', h⟩ := ih
    generalize hg : w ++ t = s0 at h
    cases h with
    | done hd => subst hg; exact absurd (brk_white hw) hd
    | space h =>
      obtain ⟨b, u, rfl, hb, -⟩ := before_head hw
      cases hg
      exact absurd rfl hb
    | line hw' h =>
      obtain ⟨rfl, rfl⟩ := before_unique hg hw hw'
      exact ⟨_, _, _, h⟩

theorem Lead.no_tab {c e k c' : Nat} {t r : Str} (h : Lead c (0x09 :: t) e k c' r) : False := by
  generalize hg : (0x09 : Byte) :: t = s0 at h
  cases h with
  | done hd => subst hg; exact hd (.inl ⟨_, .inr rfl⟩)
  | space h => cases hg
  | line hw _ =>
    obtain ⟨b, u, rfl, -, hb, -⟩ := before_head hw
    cases hg
    exact absurd rfl hb

theorem Margin.no_tab {n c e c' : Nat} {s r : Str} (h : MarginTab n c s) (h' : Margin n c s e c' r) : False := by
  induction h generalizing e c' r with
  | @tab c t hc =>
    generalize hg : (0x09 : Byte) :: t = s0 at h'
    cases h' with
    | done hd =>
      subst hg
      rcases hd with hd | hd
      · omega
      · exact hd.2 (.inl ⟨_, .inr rfl⟩)
    | space => cases hg
    | line _ hw _ =>
      obtain ⟨b, u, rfl, -, hb, -⟩ := before_head hw
      cases hg
      exact absurd rfl hb
  | @space c t hc _ ih =>
    generalize hg : (0x20 : Byte) :: t = s0 at h'
    cases h' with
    | done hd =>
      subst hg
      rcases hd with hd | hd
      · omega
      · exact hd.2 (.inl ⟨_, .inl rfl⟩)
    | space _ h => cases hg; exact ih h
    | line _ hw _ =>
      obtain ⟨b, u, rfl, hb, -⟩ := before_head hw
      cases hg
      exact absurd rfl hb
  | @line c w t hc hw _ ih =>
    generalize hg : w ++ t = s0 at h'
    cases h' with
    | done hd =>
      subst hg
      rcases hd with hd | hd
      · omega
      · exact hd.2 (brk_white hw)
    | space _ h =>
      obtain ⟨b, u, rfl, hb, -⟩ := before_head hw
      cases hg
      exact absurd rfl hb
    | line _ hw' h =>
      obtain ⟨rfl, rfl⟩ := before_unique hg hw hw'
      exact ih h

theorem LinesText.at_break {n k : Nat} {s l r w t : Str} {ls : List BlockLine} {l0 : Str} (h : LinesText n s l ls k r) (hs : s = l0 ++ (w ++ t))
    (hl : RestOfLine l0 (w ++ t)) (hw : BreakBefore w t) :
    (∃ k c, Margin n 0 t k c r ∧ (c ≠ n ∨ r = [])) ∨ ∃ e t' l' ls' k', Margin n 0 t e n t' ∧ LinesText n t' l' ls' k' r := by
  cases h with
  | eof hne hl' =>
    obtain ⟨-, h⟩ := restOfLine_unique (t := []) (by simpa using hs) hl' hl
    exact absurd h.symm (brk_ne hw)
  | @last _ w' t' _ k c hl' hw' hm hr =>
    obtain ⟨-, h⟩ := restOfLine_unique hs hl' hl
    obtain ⟨-, rfl⟩ := before_unique h hw' hw
    exact .inl ⟨_, _, hm, hr⟩
  | @more _ l' w' t' t'' _ ls e k hl' hw' hm h =>
    obtain ⟨-, h2⟩ := restOfLine_unique hs hl' hl
    obtain ⟨-, rfl⟩ := before_unique h2 hw' hw
    exact .inr ⟨_, _, _, _, _, hm, h⟩

theorem LinesText.within {n k : Nat} {s l r t : Str} {ls : List BlockLine} (hs : InLines n s t) (hne : t ≠ []) (h : LinesText n s l ls k r) :
    ∃ l' ls' k', LinesText n t l' ls' k' r := by
  induction hs with
  | start => exact ⟨_, _, _, h⟩
  | @line l0 w t t' e _ hl hw hm ih =>
    obtain ⟨l1, ls1, k1, h1⟩ := ih (by simp [brk_ne hw])
    rcases LinesText.at_break h1 rfl hl hw with ⟨k2, c2, g1, g2⟩ | ⟨e2, t2, l2, ls2, k2, g1, g2⟩
    · obtain ⟨-, rfl, rfl⟩ := margin_unique hm g1
      rcases g2 with g2 | g2
      · exact absurd rfl g2
      · exact absurd g2 hne
    · obtain ⟨-, -, rfl⟩ := margin_unique hm g1
      exact ⟨_, _, _, g2⟩

theorem head_header {s t : Str} {c : Chomping} (h : BlockHead s c t) : HeaderText s c none t := by
  obtain ⟨bl, cm, b, h1, h2, h3, h4⟩ := h
  exact ⟨c.mark, bl, cm, b, h1, ⟨.inl (by simp), by simp⟩, h2, h3.imp id (fun h => h.2), .inr h4⟩

theorem lead_head {c e k c' : Nat} {t r : Str} (h : Lead c t e k c' r) (hc : c < c') : ∀ x u, t = x :: u → ¬ IsMark x := by
  intro x u hx hm
  have hp := isMark_plain hm
  cases h with
  | done => omega
  | space => cases hx; exact hp.1 rfl
  | line hw =>
    obtain ⟨y, v, rfl, hy⟩ := break_bytes hw
    cases hx
    rcases hy with rfl | rfl | rfl | rfl
    · exact hp.2.2.2.1 rfl
    · exact hp.2.2.2.2.1 rfl
    · exact hp.2.2.2.2.2.1 rfl
    · exact hp.2.2.2.2.2.2 rfl

theorem break_marks {b t : Str} (h : BreakBefore b t) : ∀ x ∈ b, ¬ IsMark x := by
  have hw := h.1
  simp only [lineBreaks, List.mem_cons, List.not_mem_nil, or_false] at hw
  intro x hx hm
  have h0 : isDigit x = true ∨ x = b! '+' ∨ x = b! '-' := hm.imp isDigit_iff.2 id
  clear hm h
  revert x
  rcases hw with rfl | rfl | rfl | rfl | rfl | rfl <;> decide

theorem head_marks {s t : Str} {c : Chomping} (h : BlockHead s c t) (ht : ∀ x u, t = x :: u → ¬ IsMark x) :
    ∀ x y u, s = x :: y :: u → ¬ IsMark x → ¬ IsMark y := by
  obtain ⟨bl, cm, b, rfl, h2, h3, h4⟩ := h
  intro x y u hs hx hy
  have hyp := isMark_plain hy
  have hb := break_marks h4
  have hbne : ∃ z v, b = z :: v := by
    obtain ⟨z, v, h, -⟩ := break_bytes h4
    exact ⟨z, v, h⟩
  cases c with
  | strip => exact hx (.inr (.inr (List.cons.inj hs).1.symm))
  | keep => exact hx (.inr (.inl (List.cons.inj hs).1.symm))
  | clip =>
    simp only [Chomping.mark, List.nil_append] at hs
    cases bl with
    | nil =>
      rcases h3 with rfl | h3
      · simp only [List.nil_append] at hs
        obtain ⟨z, v, rfl⟩ := hbne
        cases v with
        | nil => cases hs; exact ht _ _ rfl hy
        | cons z' v => cases hs; exact hb _ (by simp) hy
      · exact absurd rfl h3.1
    | cons z bl =>
      cases bl with
      | nil =>
        rcases h3 with rfl | ⟨-, l, rfl, -⟩
        · simp only [List.nil_append, List.cons_append] at hs
          obtain ⟨z', v, rfl⟩ := hbne
          cases hs
          exact hb _ (by simp) hy
        · cases hs
          exact hyp.2.2.1 rfl
      | cons z' bl =>
        cases hs
        rcases h2 y (by simp) with h | h
        · exact hyp.1 h
        · exact hyp.2.1 h

section
variable {n k c : Nat} {x : BlockScalar} {s t u r : Str}

theorem word_faults (hh : BlockHead s x.chomp t) (hl : Lead 0 t x.first.empty k c (x.first.text ++ u)) (hc : c = max k (n + 1))
    (hx : LinesText c (x.first.text ++ u) x.first.text x.more x.breaks r) {e : ScanError} : ¬ BlockFault n e s := by
  have hH := head_header hh
  intro h
  cases h with
  | header h => exact h _ _ _ hH
  | second h1 h2 => exact head_marks hh (lead_head hl (by omega)) _ _ _ rfl h1 h2
  | leadTab h1 h2 h3 =>
    obtain ⟨-, -, rfl⟩ := headerText_unique hH h1
    obtain ⟨_, _, _, h4⟩ := Lead.within h3 hl
    exact Lead.no_tab h4
  | lineTab h1 h2 h3 h4 h5 h6 h7 h8 =>
    obtain ⟨-, -, rfl⟩ := headerText_unique hH h1
    obtain ⟨-, rfl, rfl, rfl⟩ := lead_unique hl h3
    obtain ⟨_, _, _, g⟩ := LinesText.within h5 (by simp [brk_ne h7]) hx
    rcases LinesText.at_break g rfl h6 h7 with ⟨_, _, g1, -⟩ | ⟨_, _, _, _, _, g1, -⟩
    · exact Margin.no_tab h8 g1
    · exact Margin.no_tab h8 g1

theorem word_jams (hh : BlockHead s x.chomp t) (hl : Lead 0 t x.first.empty k c (x.first.text ++ u)) (hc : c = max k (n + 1))
    (hx : LinesText c (x.first.text ++ u) x.first.text x.more x.breaks r) (ha : Ascii s) : ¬ BlockJam false n s := by
  have hH := head_header hh
  intro h
  cases h with
  | comment hs _ _ _ ht =>
    rw [hs] at ha
    exact wide_ascii (p := 0x23 :: _) (ha.right.right) ht
  | wide hh _ hl _ hu _ hv => exact wide_ascii (((ha.suffix hh.suffix).suffix hl.suffix).suffix hu.suffix) hv
  | digit _ h1 => cases (headerText_unique hH h1).2.1
  | empty _ h1 _ h2 h3 =>
    obtain ⟨-, -, rfl⟩ := headerText_unique hH h1
    obtain ⟨-, rfl, rfl, rfl⟩ := lead_unique hl h2
    rcases h3 with h3 | h3
    · exact h3 hc
    · exact linesText_ne hx h3
  | clip _ hh _ hl _ hu _ _ hv =>
    obtain ⟨b, v', rfl, hb⟩ := hv
    have := (ha.suffix hh.suffix).suffix hl.suffix
    rw [hu] at this
    exact absurd (this b (by simp)) (by byte_omega)
  | keep _ hh _ hl _ hu _ _ hc =>
    obtain ⟨b, w', rfl, hb⟩ := hc
    have := (ha.suffix hh.suffix).suffix hl.suffix
    rw [hu] at this
    exact absurd (this b (by simp)) (by byte_omega)

/-- At least one line is read. -/
theorem eager_reads {fold : Bool} {m : MStats} {tok : Token} {c' : Cur} {d : Option Byte} {ch : Chomping}
    (hH : HeaderText s ch d t) (ht : t ≠ []) (h : scanBlockEager opts n fold ⟨(if fold then b! '>' else b! '|') :: s, m⟩ = .ok (tok, c')) :
    Reads ⟨(if fold then b! '>' else b! '|') :: s, m⟩ c' ∧ m.lines < c'.stats.lines := by
  have hnb : isBreak ((if fold then b! '>' else b! '|') :: s) = false := by cases fold <;> exact NoBrk.isBreak (by decide)
  rw [scanBlockEager_eq] at h
  obtain ⟨⟨ch, ex, c1⟩, h1, h⟩ := Out.bind_eq_ok.1 h
  obtain ⟨k, d, p, g1, -, -, g4, g5, g6⟩ := blockHeader_means rfl h1
  obtain ⟨-, -, rfl⟩ := headerText_unique hH g1
  obtain ⟨e1, -⟩ := (blockHeader_sat (P := True) (.inl trivial) (by simp) hnb).of_ok h1
  simp only at h e1
  have e2 : Reads ⟨(if fold then b! '>' else b! '|') :: s, m⟩ c1 := by
    rcases e1.exact with e | e
    · exact e
    · exact absurd e ht
  obtain ⟨di, h2, h⟩ := Out.bind_eq_ok.1 h
  have e3 := (blockIndent_sat (P := True) (.inl trivial)).of_ok h2
  obtain ⟨st, h3, h⟩ := Out.bind_eq_ok.1 h
  have hle := (e2.trans e3).length_le
  simp only at hle
  have e4 := (blockLoop_sat (P := True) (st := ⟨di.cur, _, _, _, _, _⟩) trivial (by simp only; omega) (by simp only; omega)).of_ok h3
  obtain ⟨v', h4, h⟩ := Out.bind_eq_ok.1 h
  simp only [Out.ok.injEq, Prod.mk.injEq] at h
  obtain ⟨-, rfl⟩ := h
  refine ⟨(e2.trans e3).trans e4, ?_⟩
  have l1 := (e3.trans e4).lines_le
  have l2 := e2.lines_le
  simp only at l2
  refine Nat.lt_of_lt_of_le (Nat.lt_of_le_of_ne l2 fun hl => ?_) l1
  generalize hg : (⟨(if fold then b! '>' else b! '|') :: s, m⟩ : Cur) = c0 at e2
  cases e2 with
  | refl =>
    have := congrArg List.length g4.1
    subst hg
    cases p with
    | nil => exact g5 rfl
    | cons => simp at this; omega
  | byte hb h5 =>
    cases hg
    have := h5.column_le (by simp [MStats.update, hl])
    simp [MStats.update, g6] at this
  | line hb =>
    subst hg
    rw [hnb] at hb
    cases hb

theorem word_scans (hx : opts.extendable = false) (hz : opts.lazy = false) {fold : Bool} {w : Scalar} {m : MStats}
    (h : BlockWord n ((if fold then b! '>' else b! '|') :: s) w r) (ha : Ascii ((if fold then b! '>' else b! '|') :: s)) :
    ∃ c' : Cur, scanBlock opts n fold ⟨(if fold then b! '>' else b! '|') :: s, m⟩ = .ok (.Token (.Scalar w.data w.style), c') ∧ c'.buf = r ∧
      Reads ⟨(if fold then b! '>' else b! '|') :: s, m⟩ c' ∧ m.lines < c'.stats.lines := by
  generalize hg : (if fold then b! '>' else b! '|') :: s = s0 at h
  cases h with
  | @mk x s' t u r k c hh hl hc hx' hne hf hr =>
    obtain ⟨rfl, rfl⟩ : fold = x.fold ∧ s = s' := by
      obtain ⟨h1, h2⟩ := List.cons.inj hg
      refine ⟨?_, h2⟩
      revert h1
      cases fold <;> cases x.fold <;> decide
    have hH := head_header hh
    have hT : BlockText n ((if x.fold then b! '>' else b! '|') :: s) x.fold (x.read u) r := .lines (by simp) hH hl hc hx'
    have htne : t ≠ [] := by
      rintro rfl
      obtain ⟨p, hp⟩ := hl.suffix
      exact linesText_ne hx' (List.append_eq_nil_iff.1 hp.symm).2
    have hind : (if x.fold then b! '>' else b! '|') < 0x80 := by cases x.fold <;> decide
    have hF := scanBlock_faults (opts := opts) (base := n) (fold := x.fold) (b := if x.fold then b! '>' else b! '|') (s := s) (m := m)
    have hJ := scanBlock_jams (opts := opts) (base := n) (fold := x.fold) (m := m) ha.validUtf8 hind
    have hnb : isBreak ((if x.fold then b! '>' else b! '|') :: s) = false := by cases x.fold <;> exact NoBrk.isBreak (by decide)
    have hD := scanBlockEager_sat (P := True) (opts := opts) (baseIndent := n) (fold := x.fold) (c := ⟨(if x.fold then b! '>' else b! '|') :: s, m⟩) trivial (by simp) hnb
    unfold scanBlock at hF hJ ⊢
    simp only [hz, Bool.false_eq_true, ↓reduceIte] at hF hJ ⊢
    cases he : scanBlockEager opts n x.fold ⟨(if x.fold then b! '>' else b! '|') :: s, m⟩ with
    | ok a =>
      obtain ⟨tok, c'⟩ := a
      rw [he] at hD
      obtain ⟨-, -, v, hv⟩ := hD
      simp only at hv
      subst hv
      obtain ⟨-, h1, h2⟩ := blockText_unique hT (scanBlockEager_means rfl he)
      obtain ⟨h3, h4⟩ := eager_reads hH htne he
      subst h1
      refine ⟨c', ?_, h2.symm, h3, h4⟩
      simp [bind, Out.bind, hr, blockStyle]
    | err e =>
      rw [he] at hF
      rcases hF.2 e rfl with h | h
      · rw [hx] at h; cases h.2
      · exact absurd h (word_faults hh hl hc hx')
    | panic =>
      rw [he] at hJ
      exact absurd (hJ.2 rfl) (word_jams hh hl hc hx' (Ascii.right (s := [_]) ha))
    | diverge => rw [he] at hD; exact hD.elim

end

end Yary.Blocks
