import Verif.Spec.Position
import Verif.Proof.Scan.Base

/-! # Positions and white space -/

namespace Yary

open Spec

theorem atBreak_iff {s : Str} : AtBreak s ↔ isBreak s = true := by
  unfold AtBreak lineBreaks
  constructor
  · rintro ⟨w, hw, t, rfl⟩
    simp only [List.mem_cons, List.not_mem_nil, or_false] at hw
    rcases hw with rfl | rfl | rfl | rfl | rfl | rfl <;> rfl
  · intro h
    unfold isBreak at h
    split at h
    · exact ⟨[0x0D], by simp, _, rfl⟩
    · exact ⟨[0x0A], by simp, _, rfl⟩
    · exact ⟨[0xC2, 0x85], by simp, _, rfl⟩
    · exact ⟨[0xE2, 0x80, 0xA8], by simp, _, rfl⟩
    · exact ⟨[0xE2, 0x80, 0xA9], by simp, _, rfl⟩
    · cases h

theorem breakLen_before {w t : Str} (h : BreakBefore w t) : breakLen (w ++ t) = w.length := by
  obtain ⟨hw, ht⟩ := h
  simp only [lineBreaks, List.mem_cons, List.not_mem_nil, or_false] at hw
  rcases hw with rfl | rfl | rfl | rfl | rfl | rfl
  · rfl
  · simp only [List.singleton_append]
    cases t with
    | nil => rfl
    | cons b t =>
      unfold breakLen
      split <;> simp_all
  · rfl
  · rfl
  · rfl
  · rfl

/-- Every break is one of the list, and the whole of it. -/
theorem break_split {s : Str} (h : isBreak s = true) :
    ∃ w t, s = w ++ t ∧ BreakBefore w t ∧ s.drop (breakLen s) = t := by
  have key : ∀ w t, s = w ++ t → BreakBefore w t → ∃ w t, s = w ++ t ∧ BreakBefore w t ∧ s.drop (breakLen s) = t :=
    fun w t hs hw => ⟨w, t, hs, hw, by rw [hs, breakLen_before hw, List.drop_left]⟩
  unfold isBreak at h
  split at h
  · rename_i t
    cases t with
    | nil => exact key [0x0D] [] rfl ⟨by simp [lineBreaks], by simp⟩
    | cons b t =>
      by_cases hb : b = 0x0A
      · subst hb
        exact key [0x0D, 0x0A] t rfl ⟨by simp [lineBreaks], by simp⟩
      · exact key [0x0D] (b :: t) rfl ⟨by simp [lineBreaks], by
          rintro ⟨-, u, hu⟩
          simp only [List.cons.injEq] at hu
          exact hb hu.1⟩
  · exact key [0x0A] _ rfl ⟨by simp [lineBreaks], by simp⟩
  · exact key [0xC2, 0x85] _ rfl ⟨by simp [lineBreaks], by simp⟩
  · exact key [0xE2, 0x80, 0xA8] _ rfl ⟨by simp [lineBreaks], by simp⟩
  · exact key [0xE2, 0x80, 0xA9] _ rfl ⟨by simp [lineBreaks], by simp⟩
  · cases h

theorem linesOf_ne (s : Str) : linesOf s ≠ [] := by
  rw [linesOf.eq_def]
  split <;> try simp
  split <;> simp

theorem linesOf_break {w t : Str} (h : BreakBefore w t) : linesOf (w ++ t) = [] :: linesOf t := by
  obtain ⟨hw, ht⟩ := h
  simp only [lineBreaks, List.mem_cons, List.not_mem_nil, or_false] at hw
  rcases hw with rfl | rfl | rfl | rfl | rfl | rfl
  · simp [linesOf]
  · simp only [List.singleton_append]
    cases t with
    | nil => simp [linesOf]
    | cons b t =>
      rw [linesOf.eq_def]
      split <;> simp_all
  · simp [linesOf]
  · simp [linesOf]
  · simp [linesOf]
  · simp [linesOf]

theorem linesOf_byte {b : Byte} {t l : Str} {ls : List Str} (h : isBreak (b :: t) = false)
    (ht : linesOf t = l :: ls) : linesOf (b :: t) = (b :: l) :: ls := by
  rw [linesOf.eq_def]
  split
  · simp_all
  all_goals simp_all [isBreak]

theorem isBreak_prefix {p r : Str} (h : isBreak (p ++ r) = false) : isBreak p = false := by
  cases hp : isBreak p with
  | false => rfl
  | true =>
    obtain ⟨w, hw, hw'⟩ := atBreak_iff.2 hp
    have : isBreak (p ++ r) = true := atBreak_iff.1 ⟨w, hw, hw'.trans ⟨r, rfl⟩⟩
    rw [this] at h; cases h

theorem posAfter_byte {b : Byte} {t : Str} {m : MStats} (h : isBreak (b :: t) = false) :
    posAfter m (b :: t) = posAfter (m.update 1 0 1) t := by
  cases ht : linesOf t with
  | nil => exact absurd ht (linesOf_ne t)
  | cons l ls =>
    unfold posAfter
    rw [linesOf_byte h ht, ht]
    cases ls with
    | nil => simp [MStats.update]; omega
    | cons l' ls => simp [MStats.update]; omega

theorem posAfter_break {w t : Str} {m : MStats} (h : BreakBefore w t) :
    posAfter m (w ++ t) = posAfter (m.update w.length 1 0) t := by
  cases ht : linesOf t with
  | nil => exact absurd ht (linesOf_ne t)
  | cons l ls =>
    unfold posAfter
    rw [linesOf_break h, ht]
    cases ls with
    | nil => simp [MStats.update]; omega
    | cons l' ls => simp [MStats.update]; omega

theorem posAfter_nil (m : MStats) : posAfter m [] = m := by
  simp [posAfter, linesOf]

/-- Reading a text gives the position after it. -/
theorem Reads.posAfter {a c : Cur} (h : Reads a c) :
    ∃ p, a.buf = p ++ c.buf ∧ c.stats = Spec.posAfter a.stats p := by
  induction h with
  | refl c => exact ⟨[], rfl, (posAfter_nil _).symm⟩
  | @byte b t m c hb _ ih =>
    obtain ⟨p, h1, h2⟩ := ih
    simp only at h1 h2
    refine ⟨b :: p, by simp [h1], ?_⟩
    simp only
    rw [h1, ← List.cons_append] at hb
    rw [h2, posAfter_byte (isBreak_prefix hb)]
  | @line c c' hb _ ih =>
    obtain ⟨p, h1, h2⟩ := ih
    obtain ⟨w, t, h3, h4, h5⟩ := break_split hb
    simp only at h1 h2
    rw [h5] at h1
    have h4' : BreakBefore w p := ⟨h4.1, by
      rintro ⟨h6, u, h7⟩
      exact h4.2 ⟨h6, u ++ c'.buf, by rw [h1, h7]; rfl⟩⟩
    refine ⟨w ++ p, by rw [h3, h1, List.append_assoc], ?_⟩
    rw [h2, posAfter_break h4', h3, breakLen_before h4]

theorem Spec.Consumes.reads {c c' : Cur} {p : Str} (h : Consumes c p c') : Reads c c' ∧ c.buf = p ++ c'.buf := by
  induction h with
  | done c => exact ⟨.refl _, rfl⟩
  | @chars c c1 c' n p h hn _ ih =>
    unfold Cur.adv at h
    by_cases hb : isBoundary c.buf n = true
    · simp only [hb, ↓reduceIte, Out.ok.injEq] at h
      subst h
      have hle := boundary_le hb
      have : ∀ n (c : Cur), n ≤ c.buf.length → (∀ i < n, ¬ AtBreak (c.buf.drop i)) →
          Reads c ⟨c.buf.drop n, c.stats.update n 0 n⟩ := by
        intro n
        induction n with
        | zero => intro c _ _; rw [MStats.update_zero]; exact .refl _
        | succ n ih =>
          intro c hl hc
          obtain ⟨buf, m⟩ := c
          cases buf with
          | nil => simp at hl
          | cons b t =>
            have h0 := hc 0 (by omega)
            rw [atBreak_iff] at h0
            refine .byte (by simpa using h0) ?_
            have := ih ⟨t, m.update 1 0 1⟩ (by simpa using hl) (fun i hi => by
              have := hc (i + 1) (by omega)
              simpa using this)
            rw [MStats.update_add, Nat.add_comm 1] at this
            exact this
      refine ⟨(this n c hle hn).trans ih.1, ?_⟩
      have := ih.2
      simp only at this
      rw [List.append_assoc, ← this, List.take_append_drop]
    · simp [hb] at h
  | @line c c1 c' w p t hb hw h _ ih =>
    unfold Cur.line at h
    by_cases hbd : isBoundary c.buf (breakLen c.buf) = true
    · simp only [hbd, ↓reduceIte, Out.ok.injEq] at h
      subst h
      have hbr : isBreak c.buf = true := by
        rw [← breakLen_pos, hb, breakLen_before hw]
        have := hw.1
        simp only [lineBreaks, List.mem_cons, List.not_mem_nil, or_false] at this
        rcases this with rfl | rfl | rfl | rfl | rfl | rfl <;> simp
      refine ⟨.line hbr ih.1, ?_⟩
      have := ih.2
      simp only at this
      rw [hb, breakLen_before hw, List.drop_left] at this
      rw [hb, this, List.append_assoc]
    · simp [hbd] at h

theorem not_blank {s : Str} : isBlank s = false ↔ (∀ t, s ≠ 0x20 :: t) ∧ ∀ t, s ≠ 0x09 :: t := by
  cases s with
  | nil => simp [isBlank, startsWith]
  | cons b t => simp [isBlank, startsWith]

/-- What the loop has read if it succeeds. -/
theorem eatWsLoop_skips {opts : SFlags} {comments : Bool} : ∀ fuel (chomp : Bool) (c c' : Cur),
    (chomp = true → comments = true) → eatWsLoop opts comments fuel chomp c = .ok c' →
    ∃ n, c'.stats.lines = c.stats.lines + n ∧
      if chomp then ∃ body t, c.buf = body ++ t ∧ (∀ i < body.length, ¬ AtBreak ((body ++ t).drop i)) ∧
        (t = [] ∨ AtBreak t) ∧ Skips comments t n c'.buf
      else Skips comments c.buf n c'.buf := by
  intro fuel
  induction fuel with
  | zero => intro _ _ _ _ h; simp [eatWsLoop] at h
  | succ fuel ih =>
    intro chomp c c' hch h
    rw [eatWsLoop] at h
    obtain ⟨_, -, h⟩ := Out.bind_eq_ok.1 h
    -- reading one byte that is no break, in or before a comment
    have inside : ∀ b t, c.buf = b :: t → isBreak (b :: t) = false → ∀ n,
        (∃ body u, t = body ++ u ∧ (∀ i < body.length, ¬ AtBreak ((body ++ u).drop i)) ∧
          (u = [] ∨ AtBreak u) ∧ Skips comments u n c'.buf) →
        ∃ body u, c.buf = body ++ u ∧ (∀ i < body.length, ¬ AtBreak ((body ++ u).drop i)) ∧
          (u = [] ∨ AtBreak u) ∧ Skips comments u n c'.buf := by
      rintro b t hc hb n ⟨body, u, rfl, h1, h2, h3⟩
      refine ⟨b :: body, u, by simp [hc], ?_, h2, h3⟩
      intro i hi
      cases i with
      | zero => rw [atBreak_iff]; simpa using hb
      | succ i => simpa using h1 i (by simpa using hi)
    have advance : ∀ {n : Nat} {c1 : Cur}, c.adv n = .ok c1 → c1.buf = c.buf.drop n ∧ c1.stats.lines = c.stats.lines := by
      intro n c1 h
      unfold Cur.adv at h
      split at h
      · simp only [Out.ok.injEq] at h
        subst h
        simp [MStats.update]
      · cases h
    by_cases h1 : isBlank c.buf = true
    · simp only [h1, ↓reduceIte] at h
      obtain ⟨c1, h2, h⟩ := Out.bind_eq_ok.1 h
      obtain ⟨e1, e2⟩ := advance h2
      obtain ⟨n, h3, h4⟩ := ih chomp c1 c' hch h
      obtain ⟨b, t, hb, hb'⟩ := isBlank_iff.1 h1
      refine ⟨n, by rw [h3, e2], ?_⟩
      rw [e1, hb] at h4
      simp only [List.drop_succ_cons, List.drop_zero] at h4
      cases chomp with
      | true => exact inside b t hb (by rw [← hb]; exact isBlank_break h1) n h4
      | false => rw [hb]; exact .blank hb' h4
    · simp only [h1, Bool.false_eq_true, ↓reduceIte] at h
      by_cases h2 : isBreak c.buf = true
      · simp only [h2, ↓reduceIte] at h
        obtain ⟨c1, h3, h⟩ := Out.bind_eq_ok.1 h
        obtain ⟨n, h4, h5⟩ := ih false c1 c' (by simp) h
        obtain ⟨w, t, e1, e2, e3⟩ := break_split h2
        have e4 : c1 = ⟨t, c.stats.update (breakLen c.buf) 1 0⟩ := by
          unfold Cur.line at h3
          split at h3
          · simp only [Out.ok.injEq] at h3
            rw [← h3, e3]
          · cases h3
        subst e4
        simp only [Bool.false_eq_true, ↓reduceIte] at h4 h5
        have h6 : Skips comments c.buf (n + 1) c'.buf := by rw [e1]; exact .line e2 h5
        refine ⟨n + 1, by rw [h4]; simp [MStats.update]; omega, ?_⟩
        cases chomp with
        | true => exact ⟨[], c.buf, rfl, by simp, .inr (atBreak_iff.2 h2), h6⟩
        | false => exact h6
      · simp only [h2, Bool.false_eq_true, ↓reduceIte] at h
        by_cases h3 : (comments && startsWith c.buf b! '#') = true
        · simp only [h3, ↓reduceIte] at h
          obtain ⟨c1, h4, h⟩ := Out.bind_eq_ok.1 h
          obtain ⟨e1, e2⟩ := advance h4
          rw [Bool.and_eq_true] at h3
          obtain ⟨t, hb⟩ := startsWith_iff.1 h3.2
          obtain ⟨n, h5, h6⟩ := ih true c1 c' (fun _ => h3.1) h
          refine ⟨n, by rw [h5, e2], ?_⟩
          rw [e1, hb] at h6
          simp only [List.drop_succ_cons, List.drop_zero, ↓reduceIte] at h6
          cases chomp with
          | true => exact inside _ t hb (by rw [← hb]; simpa using h2) n h6
          | false =>
            obtain ⟨body, u, rfl, f1, f2, f3⟩ := h6
            rw [hb]
            exact .comment h3.1 f1 f2 f3
        · simp only [h3, Bool.false_eq_true, ↓reduceIte] at h
          have hdone : c.buf = [] ∨ chomp = false → Skips comments c.buf 0 c.buf := by
            intro _
            refine .done (not_blank.1 (by simpa using h1)).1 (not_blank.1 (by simpa using h1)).2
              (by rw [atBreak_iff]; exact h2) ?_
            intro hc t ht
            simp [hc, ht, startsWith] at h3
          by_cases h4 : (chomp && !c.buf.isEmpty) = true
          · simp only [h4, ↓reduceIte] at h
            obtain ⟨c1, h5, h⟩ := Out.bind_eq_ok.1 h
            obtain ⟨e1, e2⟩ := advance h5
            obtain ⟨n, h6, h7⟩ := ih chomp c1 c' hch h
            refine ⟨n, by rw [h6, e2], ?_⟩
            rw [Bool.and_eq_true] at h4
            rw [h4.1] at h7 ⊢
            cases hb : c.buf with
            | nil => rw [hb] at h4; simp at h4
            | cons b t =>
              rw [e1, hb] at h7
              simp only [List.drop_succ_cons, List.drop_zero, ↓reduceIte] at h7
              have := inside b t hb (by rw [← hb]; simpa using h2) n h7
              rw [hb] at this
              exact this
          · simp only [h4, Bool.false_eq_true, ↓reduceIte, Out.ok.injEq] at h
            subst h
            refine ⟨0, rfl, ?_⟩
            cases hch' : chomp with
            | false => exact hdone (.inr hch')
            | true =>
              have hnil : c.buf = [] := by simpa [hch'] using h4
              rw [hnil]
              refine ⟨[], [], rfl, by simp, .inl rfl, ?_⟩
              have := hdone (.inl hnil)
              rwa [hnil] at this

theorem comment_split {b b' t t' : Str} (h : b ++ t = b' ++ t')
    (hb : ∀ i < b.length, ¬ AtBreak ((b ++ t).drop i)) (ht : t = [] ∨ AtBreak t)
    (hb' : ∀ i < b'.length, ¬ AtBreak ((b' ++ t').drop i)) (ht' : t' = [] ∨ AtBreak t') : b = b' ∧ t = t' := by
  have key : ∀ {b b' t t' : Str}, b ++ t = b' ++ t' → (t = [] ∨ AtBreak t) →
      (∀ i < b'.length, ¬ AtBreak ((b' ++ t').drop i)) → ¬ b.length < b'.length := by
    intro b b' t t' h ht hb' hlt
    have h1 := hb' _ hlt
    rw [← h, List.drop_left] at h1
    rcases ht with rfl | ht
    · have := congrArg List.length h
      simp at this
      omega
    · exact h1 ht
  have h1 := key h ht hb'
  have h2 := key h.symm ht' hb
  exact List.append_inj h (by omega)

theorem before_unique {w w' t t' : Str} (h : w ++ t = w' ++ t') (hw : BreakBefore w t) (hw' : BreakBefore w' t') :
    w = w' ∧ t = t' := by
  have := breakLen_before hw
  rw [h, breakLen_before hw'] at this
  exact List.append_inj h this.symm

theorem before_head {w t : Str} (h : BreakBefore w t) : ∃ b u, w = b :: u ∧ b ≠ 0x20 ∧ b ≠ 0x09 ∧ b ≠ 0x23 := by
  have hw := h.1
  simp only [lineBreaks, List.mem_cons, List.not_mem_nil, or_false] at hw
  rcases hw with rfl | rfl | rfl | rfl | rfl | rfl <;> exact ⟨_, _, rfl, by decide, by decide, by decide⟩

theorem before_at {w t : Str} (h : BreakBefore w t) : AtBreak (w ++ t) := ⟨w, h.1, t, rfl⟩

/-- What is skipped is determined by the text. -/
theorem Spec.Skips.unique {comments : Bool} {s r r' : Str} {n n' : Nat} (h : Skips comments s n r)
    (h' : Skips comments s n' r') : n = n' ∧ r = r' := by
  induction h generalizing n' r' with
  | @done s h1 h2 h3 h4 =>
    cases h' with
    | done => exact ⟨rfl, rfl⟩
    | blank hb _ => rcases hb with rfl | rfl
                    · exact absurd rfl (h1 _)
                    · exact absurd rfl (h2 _)
    | line hw _ => exact absurd (before_at hw) h3
    | comment hc _ _ _ => exact absurd rfl (h4 hc _)
  | @blank b t r n hb h ih =>
    generalize hs : b :: t = s' at h'
    cases h' with
    | done h1 h2 =>
      subst hs
      rcases hb with rfl | rfl
      · exact absurd rfl (h1 _)
      · exact absurd rfl (h2 _)
    | blank hb' h' =>
      simp only [List.cons.injEq] at hs
      obtain ⟨rfl, rfl⟩ := hs
      exact ih h'
    | line hw _ =>
      obtain ⟨x, u, rfl, h1, h2, -⟩ := before_head hw
      simp only [List.cons_append, List.cons.injEq] at hs
      rw [hs.1] at hb
      rcases hb with h | h
      · exact absurd h h1
      · exact absurd h h2
    | comment hc _ _ _ =>
      simp only [List.cons.injEq] at hs
      rw [hs.1] at hb
      rcases hb with h | h <;> exact absurd h (by decide)
  | @line w t r n hw h ih =>
    generalize hs : w ++ t = s' at h'
    cases h' with
    | done h1 h2 h3 =>
      subst hs
      exact absurd (before_at hw) h3
    | blank hb' h' =>
      obtain ⟨x, u, rfl, h1, h2, -⟩ := before_head hw
      simp only [List.cons_append, List.cons.injEq] at hs
      rw [← hs.1] at hb'
      rcases hb' with h | h
      · exact absurd h h1
      · exact absurd h h2
    | line hw' h' =>
      obtain ⟨rfl, rfl⟩ := before_unique hs hw hw'
      obtain ⟨rfl, rfl⟩ := ih h'
      exact ⟨rfl, rfl⟩
    | comment hc _ _ _ =>
      obtain ⟨x, u, rfl, -, -, h1⟩ := before_head hw
      simp only [List.cons_append, List.cons.injEq] at hs
      exact absurd hs.1 h1
  | @comment body t r n hc hb ht h ih =>
    generalize hs : (0x23 : Byte) :: (body ++ t) = s' at h'
    cases h' with
    | done h1 h2 h3 h4 =>
      subst hs
      exact absurd rfl (h4 hc _)
    | blank hb' h' =>
      simp only [List.cons.injEq] at hs
      rw [← hs.1] at hb'
      rcases hb' with h | h <;> exact absurd h (by decide)
    | line hw' h' =>
      obtain ⟨x, u, rfl, -, -, h1⟩ := before_head hw'
      simp only [List.cons_append, List.cons.injEq] at hs
      exact absurd hs.1.symm h1
    | comment hc' hb' ht' h' =>
      simp only [List.cons.injEq, true_and] at hs
      obtain ⟨rfl, rfl⟩ := comment_split hs hb ht hb' ht'
      exact ih h'

end Yary
