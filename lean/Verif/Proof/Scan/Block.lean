import Verif.Proof.Scan.Flow

/-! # Block scalars: what is read

Only termination, progress and what the cursor moves over; block scalars can panic even on plain
ASCII text, so the last steps are proved for `P` only. -/

namespace Yary

open Out (Sat)

variable {P : Prop}

theorem skipBlanksLoop_sat {opts : SFlags} {fuel : Nat} {c : Cur} (hP : P ∨ Ascii c.buf)
    (hf : c.buf.length < fuel) : Sat P (skipBlanksLoop opts fuel c) (fun c' => Reads c c' ∧
      isBlank c'.buf = false) := by
  induction fuel generalizing c with
  | zero => omega
  | succ fuel ih =>
    rw [skipBlanksLoop]
    split
    · rename_i hb
      refine cache_bind ?_
      obtain ⟨b, t, hbuf, -⟩ := isBlank_iff.1 hb
      refine (adv_one hP (by simp [hbuf]) (isBlank_break hb)).bind ?_
      rintro c1 ⟨h1, -, -, hl⟩
      exact (ih (h1.ascii hP) (by omega)).mono fun c' h => ⟨h1.trans h.1, h.2⟩
    · rename_i h
      exact ⟨.refl _, by simpa using h⟩

theorem toBreak_sat {opts : SFlags} {fuel : Nat} {c : Cur} (hP : P ∨ Ascii c.buf)
    (hf : c.buf.length < fuel) : Sat P (toBreak opts fuel c) (fun c' => Reads c c' ∧
      isBreakZ c'.buf = true ∧ (isBreakZ c.buf = false → c'.buf.length < c.buf.length)) := by
  induction fuel generalizing c with
  | zero => omega
  | succ fuel ih =>
    rw [toBreak]
    split
    · rename_i h
      exact ⟨.refl _, h, fun h' => (by simp [h] at h')⟩
    · rename_i h
      refine cache_bind ?_
      simp only [isBreakZ, Bool.or_eq_true, not_or, Bool.not_eq_true, List.isEmpty_eq_false_iff] at h
      refine (adv_one hP h.2 h.1).bind ?_
      rintro c1 ⟨h1, -, -, hl⟩
      refine (ih (h1.ascii hP) (by omega)).mono fun c' h => ⟨h1.trans h.1, h.2.1, fun _ => ?_⟩
      have := h.1.length_le
      omega

theorem skipBlanks_sat {opts : SFlags} {c : Cur} (hP : P ∨ Ascii c.buf) :
    Sat P (skipBlanks opts c) (fun c' => Reads c c' ∧ isBlank c'.buf = false) := by
  unfold skipBlanks
  refine cache_bind ?_
  refine (skipBlanksLoop_sat hP (by omega)).bind ?_
  rintro c1 ⟨h1, hb⟩
  split
  · refine (toBreak_sat (h1.ascii hP) (by omega)).mono ?_
    rintro c2 ⟨h2, hz, -⟩
    refine ⟨h1.trans h2, ?_⟩
    cases h : isBlank c2.buf with
    | false => rfl
    | true =>
      have := isBlank_break h
      obtain ⟨b, t, hbuf, -⟩ := isBlank_iff.1 h
      rw [isBreakZ, this] at hz
      simp [hbuf] at hz
  · exact ⟨h1, hb⟩

/-- The headers: what is read never contains a line break, or an error follows. -/
theorem scanHeaders_sat {opts : SFlags} {c : Cur} (hP : P ∨ Ascii c.buf) :
    Sat P (scanHeaders opts c) (fun r => Reads c r.2.2 ∨
      isWhiteSpaceZ r.2.2.buf = false ∧ startsWith r.2.2.buf b! '#' = false) := by
  have dig : ∀ b : Byte, isDigit b = true → NoBrk b := fun b h => isDigit_noBrk h
  have digw : ∀ (b : Byte) t, isDigit b = true → isWhiteSpaceZ (b :: t) = false ∧
      startsWith (b :: t) b! '#' = false := by
    intro b t h
    have h1 := (dig b h).isBreak (t := t)
    simp only [isDigit, Bool.and_eq_true, decide_eq_true_eq] at h
    simp only [isWhiteSpaceZ, h1, isBlank, startsWith_cons, List.isEmpty_cons, Bool.or_false,
      Bool.or_eq_false_iff, beq_eq_false_iff_ne, ne_eq]
    refine ⟨⟨?_, ?_⟩, ?_⟩ <;> (rintro rfl; revert h; decide)
  have sgn : ∀ (b : Byte), (b = b! '+' ∨ b = b! '-') → NoBrk b ∧ isDigit b = false ∧
      ∀ t, isWhiteSpaceZ (b :: t) = false ∧ startsWith (b :: t) b! '#' = false := by
    rintro b (rfl | rfl)
    · exact ⟨by decide, by decide, fun t => by
        simp [isWhiteSpaceZ, isBlank, isBreak, startsWith]⟩
    · exact ⟨by decide, by decide, fun t => by
        simp [isWhiteSpaceZ, isBlank, isBreak, startsWith]⟩
  unfold scanHeaders
  refine cache_bind ?_
  obtain ⟨buf, m⟩ := c
  -- the number of bytes skipped
  suffices h : ∀ n, n = (if (if headerHas buf b! '+' then ChompStyle.Keep else
        if headerHas buf b! '-' then .Strip else .Clip) = .Clip
        then (if (headerDigit buf).isSome then 1 else 0)
        else (if (headerDigit buf).isSome then 1 else 0) + 1) →
      n ≤ buf.length ∧ ((∀ b ∈ buf.take n, NoBrk b) ∨
        isWhiteSpaceZ (buf.drop n) = false ∧ startsWith (buf.drop n) b! '#' = false) by
    obtain ⟨h1, h2⟩ := h _ rfl
    refine (adv_sat hP h1).bind ?_
    rintro c' rfl
    simp only [Out.Sat.ok]
    rcases h2 with h2 | h2
    · exact .inl (.drop h1 h2)
    · exact .inr h2
  intro n hn
  have hchomp : (if headerHas buf b! '+' then ChompStyle.Keep else
        if headerHas buf b! '-' then .Strip else .Clip) = .Clip ↔
      (headerHas buf b! '+' = false ∧ headerHas buf b! '-' = false) := by
    split
    · simp_all
    · split <;> simp_all
  generalize (if headerHas buf b! '+' then ChompStyle.Keep else
        if headerHas buf b! '-' then .Strip else .Clip) = ch at hn hchomp
  cases buf with
  | nil =>
    have : ch = .Clip := hchomp.2 (by simp [headerHas, startsWith])
    simp [this, headerDigit] at hn
    subst hn
    simp
  | cons a t =>
    cases hda : isDigit a with
    | true =>
      have hd : (headerDigit (a :: t)).isSome = true := by simp [headerDigit, hda]
      have ha1 : ¬ a = b! '+' := by rintro rfl; revert hda; decide
      have ha2 : ¬ a = b! '-' := by rintro rfl; revert hda; decide
      simp only [hd, ↓reduceIte] at hn
      split at hn
      · subst hn
        exact ⟨by simp, .inl (by simpa using dig a hda)⟩
      · rename_i hc
        rw [hchomp] at hc
        simp only [headerHas, startsWith_cons, List.drop_succ_cons, List.drop_zero] at hc
        cases t with
        | nil => simp [startsWith, ha1, ha2] at hc
        | cons b t =>
          have hb : b = b! '+' ∨ b = b! '-' := by
            by_cases h : b = b! '+'
            · exact .inl h
            · right
              simp [startsWith_cons, ha1, ha2, h] at hc
              exact hc
          subst hn
          refine ⟨by simp, .inl ?_⟩
          simpa using ⟨dig a hda, (sgn b hb).1⟩
    | false =>
      cases t with
      | nil =>
        have hd : headerDigit [a] = none := by simp [headerDigit, hda]
        simp only [hd, Option.isSome_none, Bool.false_eq_true, ↓reduceIte] at hn
        split at hn
        · subst hn; simp
        · rename_i hc
          rw [hchomp] at hc
          subst hn
          have ha : a = b! '+' ∨ a = b! '-' := by
            by_cases h : a = b! '+'
            · exact .inl h
            · right
              simpa [headerHas, startsWith, h] using hc
          exact ⟨by simp, .inl (by simpa using (sgn a ha).1)⟩
      | cons b t =>
        cases hdb : isDigit b with
        | true =>
          have hd : (headerDigit (a :: b :: t)).isSome = true := by simp [headerDigit, hda, hdb]
          have hb1 : ¬ b = b! '+' := by rintro rfl; revert hdb; decide
          have hb2 : ¬ b = b! '-' := by rintro rfl; revert hdb; decide
          simp only [hd, ↓reduceIte] at hn
          split at hn
          · subst hn
            exact ⟨by simp, .inr (by simpa using digw b t hdb)⟩
          · rename_i hc
            rw [hchomp] at hc
            have ha : a = b! '+' ∨ a = b! '-' := by
              by_cases h : a = b! '+'
              · exact .inl h
              · right
                simpa [headerHas, startsWith, h, hb1, hb2] using hc
            subst hn
            refine ⟨by simp, .inl ?_⟩
            simpa using ⟨(sgn a ha).1, dig b hdb⟩
        | false =>
          have hd : headerDigit (a :: b :: t) = none := by simp [headerDigit, hda, hdb]
          simp only [hd, Option.isSome_none, Bool.false_eq_true, ↓reduceIte] at hn
          split at hn
          · subst hn; simp
          · rename_i hc
            rw [hchomp] at hc
            subst hn
            by_cases ha : a = b! '+' ∨ a = b! '-'
            · exact ⟨by simp, .inl (by simpa using (sgn a ha).1)⟩
            · rw [not_or] at ha
              have hb : b = b! '+' ∨ b = b! '-' := by
                by_cases h : b = b! '+'
                · exact .inl h
                · right
                  simpa [headerHas, startsWith, h, ha.1, ha.2] using hc
              exact ⟨by simp, .inr (by simpa using (sgn b hb).2.2 t)⟩

/-- What a block scalar reads: at the very end of the text a line is counted that is not there. -/
structure BlockReads (c c' : Cur) : Prop where
  moves : Moves c c'
  read : c.stats.read + c.buf.length = c'.stats.read + c'.buf.length
  exact : Reads c c' ∨ c'.buf = []

theorem Reads.block {c c' : Cur} (h : Reads c c') : BlockReads c c' := ⟨h.moves, h.read, .inl h⟩

theorem BlockReads.trans {a b c : Cur} (h : BlockReads a b) (h' : Reads b c) : BlockReads a c := by
  refine ⟨h.moves.trans h'.moves, h.read.trans h'.read, ?_⟩
  rcases h.exact with he | he
  · exact .inl (he.trans h')
  · right
    have := h'.length_le
    rw [he] at this
    exact List.length_eq_zero_iff.1 (by simpa using this)

theorem blockHeader_sat {opts : SFlags} {c : Cur} (hP : P ∨ Ascii c.buf) (hne : c.buf ≠ [])
    (hnb : isBreak c.buf = false) :
    Sat P (blockHeader opts c) (fun r => BlockReads c r.2.2 ∧ r.2.2.buf.length < c.buf.length) := by
  unfold blockHeader
  refine cache_bind ?_
  refine (adv_one hP hne hnb).bind ?_
  rintro c1 ⟨h1, -, -, hl1⟩
  refine (scanHeaders_sat (h1.ascii hP)).bind ?_
  rintro ⟨chomp, explicit, c2⟩ h2
  simp only at h2 ⊢
  rcases h2 with h2 | ⟨h2, h2'⟩
  · refine (skipBlanks_sat ((h1.trans h2).ascii hP)).bind ?_
    rintro c3 ⟨h3, hb3⟩
    refine cache_bind ?_
    split
    · simp
    rename_i hz
    have hz : isBreak c3.buf = true ∨ c3.buf = [] := by
      simp only [isWhiteSpaceZ, hb3, Bool.false_or, Bool.not_eq_eq_eq_not, Bool.not_true,
        Bool.not_eq_false, Bool.or_eq_true, List.isEmpty_iff] at hz
      exact hz
    have h13 := (h1.trans h2).trans h3
    have hlen : c3.buf.length < c.buf.length := by
      have := h2.length_le
      have := h3.length_le
      omega
    rcases hz with hz | hz
    · refine (line_one (h13.ascii hP) hz).bind ?_
      rintro c4 ⟨h4, -, -, hl⟩
      exact ⟨(h13.trans h4).block, by simp only; omega⟩
    · refine (line_sat (h13.ascii hP)).bind ?_
      rintro c4 rfl
      have hr := h13.moves
      refine ⟨⟨⟨?_, ?_, ?_, ?_⟩, ?_, .inr (by simp [hz])⟩, by simp [hz]; simp [hz] at hlen; omega⟩
      · exact ⟨c.buf, by simp [hz]⟩
      · simp only [MStats.update]; have := hr.read_le; omega
      · simp only [MStats.update]; have := hr.lines_le; omega
      · have := hr.read_ge; simp [MStats.update, hz, breakLen] at this ⊢; omega
      · have := h13.read; simp [MStats.update, hz, breakLen] at this ⊢; omega
  · -- what follows the headers is not white space
    have hskip : skipBlanks opts c2 = cache opts 1 c2.buf >>= fun _ => .ok c2 := by
      unfold skipBlanks
      have hb : isBlank c2.buf = false := by
        simp only [isWhiteSpaceZ, Bool.or_eq_false_iff] at h2
        exact h2.1.1
      have : skipBlanksLoop opts (c2.buf.length + 1) c2 = .ok c2 := by
        rw [skipBlanksLoop]; simp [hb]
      rw [this]
      simp only [Bind.bind, Out.bind, h2', Bool.false_eq_true, ↓reduceIte]
    rw [hskip]
    refine Out.Sat.bind (Q := fun c3 => c3 = c2) (cache_bind (by simp)) ?_
    rintro c3 rfl
    refine cache_bind ?_
    simp [h2]

theorem scanIndentLoop_sat {opts : SFlags} {indent fuel lines : Nat} {c : Cur}
    (hP : P ∨ Ascii c.buf) (hf : c.buf.length < fuel) :
    Sat P (scanIndentLoop opts indent fuel c lines) (fun r => Reads c r.1) := by
  induction fuel generalizing c lines with
  | zero => omega
  | succ fuel ih =>
    rw [scanIndentLoop]
    split
    · rename_i hw
      simp only [Bool.and_eq_true, decide_eq_true_eq] at hw
      split
      · rename_i hs
        obtain ⟨t, ht⟩ := startsWith_iff.1 hs
        refine (adv_one hP (by simp [ht]) (by rw [ht]; rfl)).bind ?_
        rintro c1 ⟨h1, -, -, hl⟩
        refine cache_bind ?_
        exact (ih (h1.ascii hP) (by omega)).mono fun _ h => h1.trans h
      · split
        · simp
        · rename_i h1 h2
          have hb : isBreak c.buf = true := by
            have := hw.2
            simp only [isWhiteSpace, isBlank, h1, h2, Bool.or_false, Bool.false_or] at this
            simpa using this
          refine (line_one hP hb).bind ?_
          rintro c1 ⟨h1, -, -, hl⟩
          refine cache_bind ?_
          exact (ih (h1.ascii hP) (by omega)).mono fun _ h => h1.trans h
    · exact .refl _

theorem scanIndent_sat {opts : SFlags} {indent lines : Nat} {c : Cur} (hP : P ∨ Ascii c.buf) :
    Sat P (scanIndent opts indent c lines) (fun r => Reads c r.1) := by
  unfold scanIndent
  split
  · exact .refl _
  · exact cache_bind (scanIndentLoop_sat hP (by omega))

theorem detectBlanks_sat {opts : SFlags} {fuel : Nat} {st : DetectSt} (hP : P ∨ Ascii st.cur.buf)
    (hf : st.cur.buf.length < fuel) :
    Sat P (detectBlanks opts fuel st) (fun st' => Reads st.cur st'.cur) := by
  induction fuel generalizing st with
  | zero => omega
  | succ fuel ih =>
    rw [detectBlanks]
    split
    · rename_i hb
      refine cache_bind ?_
      split
      · simp
      · obtain ⟨b, t, hbuf, -⟩ := isBlank_iff.1 hb
        refine (adv_one hP (by simp [hbuf]) (isBlank_break hb)).bind ?_
        rintro c1 ⟨h1, -, -, hl⟩
        refine (ih (st := { st with cur := c1, canBorrow := _ }) (h1.ascii hP)
          (by simp only; omega)).mono ?_
        exact fun _ h => h1.trans h
    · exact .refl _

theorem detectLoop_sat {opts : SFlags} {fuel : Nat} {st : DetectSt} (hP : P ∨ Ascii st.cur.buf)
    (hf : st.cur.buf.length < fuel) :
    Sat P (detectLoop opts fuel st) (fun st' => Reads st.cur st'.cur) := by
  induction fuel generalizing st with
  | zero => omega
  | succ fuel ih =>
    rw [detectLoop]
    refine cache_bind ?_
    refine (detectBlanks_sat hP (by omega)).bind ?_
    intro st1 h1
    refine cache_bind ?_
    have hl1 := h1.length_le
    simp only
    by_cases hb : isBreak st1.cur.buf = true
    · rw [if_pos hb]
      refine (line_one (h1.ascii hP) hb).bind ?_
      rintro c2 ⟨h2, -, -, hl⟩
      refine (ih (st := { st1 with cur := c2, indent := _, lines := _ }) ((h1.trans h2).ascii hP)
        (by simp only at hl ⊢; omega)).mono ?_
      exact fun _ h => (h1.trans h2).trans h
    · rw [if_neg hb]
      exact h1

theorem blockIndent_sat {opts : SFlags} {explicit : Option Nat} {baseIndent : Nat} {c : Cur}
    (hP : P ∨ Ascii c.buf) :
    Sat P (blockIndent opts explicit baseIndent c) (fun d => Reads c d.cur) := by
  unfold blockIndent
  split
  · exact .refl _
  · unfold detectIndent
    refine (detectLoop_sat (st := { cur := c }) hP (by simp)).bind ?_
    intro st h
    exact h

theorem eatBreak_sat {opts : SFlags} {lines : Nat} {c : Cur} (hP : P ∨ Ascii c.buf) :
    Sat P (eatBreak opts c lines) (fun r => Reads c r.1 ∧
      (isBreak c.buf = true → r.1.buf.length < c.buf.length)) := by
  unfold eatBreak
  refine cache_bind ?_
  split
  · rename_i hb
    refine (line_one hP hb).bind ?_
    rintro c1 ⟨h1, -, -, hl⟩
    exact ⟨h1, fun _ => by simp only; omega⟩
  · rename_i h
    exact ⟨.refl _, fun h' => absurd h' h⟩

/-- One line of content: progress. -/
theorem toBreak_eatBreak {c c1 c2 : Cur} (hne : c.buf ≠ []) (h1 : Reads c c1)
    (hlt : isBreakZ c.buf = false → c1.buf.length < c.buf.length) (h2 : Reads c1 c2)
    (hlt2 : isBreak c1.buf = true → c2.buf.length < c1.buf.length) :
    c2.buf.length < c.buf.length := by
  have l1 := h1.length_le
  have l2 := h2.length_le
  cases hz : isBreakZ c.buf with
  | false => have := hlt hz; omega
  | true =>
    have hb : isBreak c.buf = true := by simpa [isBreakZ, hne] using hz
    by_cases he : c1.buf.length < c.buf.length
    · omega
    · have : c1.buf = c.buf := by
        obtain ⟨t, ht⟩ := h1.suffix
        have : t = [] := by
          have := congrArg List.length ht
          simp only [List.length_append] at this
          exact List.length_eq_zero_iff.1 (by omega)
        simpa [this] using ht.symm
      have := hlt2 (by rw [this]; exact hb)
      omega

theorem trapdoor_sat {base : Str} {st : BlockSt} (hP : P) :
    Sat P (st.trapdoor base) (fun st' => st'.cur = st.cur) := by
  unfold BlockSt.trapdoor
  split
  · refine Out.Sat.bind (Q := fun _ => True) ?_ ?_
    · unfold slice; split <;> simp [hP]
    · intro s _; rfl
  · rfl

theorem blockLoop_sat {opts : SFlags} {base : Str} {read : Nat} {fold : Bool} {indent fuel : Nat}
    {st : BlockSt} (hP : P) (hf : st.cur.buf.length < fuel)
    (hb : st.cur.buf.length ≤ base.length) :
    Sat P (blockLoop opts base read fold indent fuel st) (fun st' => Reads st.cur st'.cur) := by
  induction fuel generalizing st with
  | zero => omega
  | succ fuel ih =>
    rw [blockLoop]
    split
    · rename_i hc
      simp only [Bool.and_eq_true, decide_eq_true_eq, Bool.not_eq_eq_eq_not, Bool.not_true,
        List.isEmpty_eq_false_iff] at hc
      refine (trapdoor_sat hP).bind ?_
      intro st1 h1
      refine cache_bind ?_
      rw [h1]
      refine (toBreak_sat (.inl hP) (by omega)).bind ?_
      rintro c2 ⟨h2, -, hlt2⟩
      refine (eatBreak_sat (.inl hP)).bind ?_
      rintro ⟨c3, l3⟩ ⟨h3, hlt3⟩
      refine (scanIndent_sat (.inl hP)).bind ?_
      rintro ⟨c4, l4⟩ h4
      simp only at h3 h4 hlt3 ⊢
      have := toBreak_eatBreak hc.2 h2 hlt2 h3 hlt3
      have := h4.length_le
      refine (ih (st := ⟨c4, _, _, _, _, _⟩) (by simp only; omega) (by simp only; omega)).mono ?_
      exact fun _ h => ((h2.trans h3).trans h4).trans h
    · exact .refl _

theorem fromUtf8Unwrap_sat {s : Str} (hP : P) :
    Sat (ε := ScanError) P (fromUtf8Unwrap s) (fun _ => True) := by
  unfold fromUtf8Unwrap; split <;> simp [hP]

theorem slice_any {s : Str} {a b : Nat} (hP : P) :
    Sat (ε := ScanError) P (slice s a b) (fun _ => True) := by
  unfold slice; split <;> simp [hP]

theorem scanChomp_sat {base : Str} {style : ChompStyle} {st : BlockSt} (hP : P) :
    Sat P (scanChomp base style st) (fun _ => True) := by
  unfold scanChomp
  have hcopy : ∀ s style stop lines, Sat P (chompCopy s style stop lines) (fun _ => True) := by
    intro s style stop lines
    unfold chompCopy
    split
    · split <;> exact fromUtf8Unwrap_sat hP
    · exact fromUtf8Unwrap_sat hP
    · exact fromUtf8Unwrap_sat hP
  split
  · split
    · exact (slice_any hP).bind fun _ _ => hcopy _ _ _ _
    · unfold chompBorrow
      split
      · split
        · exact (slice_any hP).bind fun _ _ => slice_any hP
        · exact slice_any hP
      · exact slice_any hP
      · exact slice_any hP
  · exact hcopy _ _ _ _

theorem scanBlockEager_sat {opts : SFlags} {baseIndent : Nat} {fold : Bool} {c : Cur} (hP : P)
    (hne : c.buf ≠ []) (hnb : isBreak c.buf = false) :
    Sat P (scanBlockEager opts baseIndent fold c) (fun r => BlockReads c r.2 ∧
      r.2.buf.length < c.buf.length ∧ ∃ s, r.1 = .Scalar s (blockStyle fold)) := by
  rw [scanBlockEager_eq]
  refine (blockHeader_sat (.inl hP) hne hnb).bind ?_
  rintro ⟨chomp, explicit, c1⟩ ⟨h1, hl1⟩
  simp only at h1 hl1 ⊢
  refine (blockIndent_sat (.inl hP)).bind ?_
  intro d hd
  have := hd.length_le
  refine (blockLoop_sat (st := ⟨d.cur, _, _, _, _, _⟩) hP (by simp only; omega)
    (by simp only; omega)).bind ?_
  intro st hst
  refine (scanChomp_sat hP).bind ?_
  intro s _
  have := hst.length_le
  simp only at this
  exact ⟨(h1.trans hd).trans hst, by simp only; omega, s, rfl⟩

theorem blockLazyLoop_sat {opts : SFlags} {indent fuel : Nat} {c : Cur} (hP : P ∨ Ascii c.buf)
    (hf : c.buf.length < fuel) :
    Sat P (blockLazyLoop opts indent fuel c) (fun c' => Reads c c') := by
  induction fuel generalizing c with
  | zero => omega
  | succ fuel ih =>
    rw [blockLazyLoop]
    split
    · rename_i hc
      simp only [Bool.and_eq_true, decide_eq_true_eq, Bool.not_eq_eq_eq_not, Bool.not_true,
        List.isEmpty_eq_false_iff] at hc
      refine cache_bind ?_
      refine (toBreak_sat hP (by omega)).bind ?_
      rintro c2 ⟨h2, -, hlt2⟩
      refine (eatBreak_sat (h2.ascii hP)).bind ?_
      rintro ⟨c3, l3⟩ ⟨h3, hlt3⟩
      refine (scanIndent_sat ((h2.trans h3).ascii hP)).bind ?_
      rintro ⟨c4, l4⟩ h4
      simp only at h3 h4 hlt3 ⊢
      have := toBreak_eatBreak hc.2 h2 hlt2 h3 hlt3
      have := h4.length_le
      have h24 := (h2.trans h3).trans h4
      refine (ih (h24.ascii hP) (by omega)).mono ?_
      exact fun _ h => h24.trans h
    · exact .refl _

/-- Put off, a block scalar panics on no ASCII text. -/
theorem scanBlockLazy_sat {opts : SFlags} {baseIndent : Nat} {fold : Bool} {c : Cur}
    (hP : P ∨ Ascii c.buf) (hne : c.buf ≠ []) (hnb : isBreak c.buf = false) :
    Sat P (scanBlockLazy opts baseIndent fold c) (fun r => BlockReads c r.2 ∧
      r.2.buf.length < c.buf.length) := by
  unfold scanBlockLazy
  refine (blockHeader_sat hP hne hnb).bind ?_
  rintro ⟨chomp, explicit, c1⟩ ⟨h1, hl1⟩
  simp only at h1 hl1 ⊢
  refine (blockIndent_sat (h1.moves.ascii hP)).bind ?_
  intro d hd
  have hd1 := h1.trans hd
  have := hd.length_le
  refine (blockLazyLoop_sat (hd1.moves.ascii hP) (by omega)).bind ?_
  intro c2 h2
  refine (slice_sat hP (by omega) (by omega)).bind ?_
  rintro s -
  have := h2.length_le
  exact ⟨hd1.trans h2, by simp only; omega⟩

end Yary
