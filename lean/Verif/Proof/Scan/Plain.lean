import Verif.Proof.Scan.Flow

/-! # Plain scalars: termination, panics, what is read, and what the contents are -/

namespace Yary

open Out (Sat)

variable {P : Prop}

/-- A white space byte. -/
def WsByte (b : Byte) : Prop := b = 0x20 ∨ b = 0x09 ∨ b = 0x0A ∨ b = 0x0D

/-- Neither the first nor the last byte is white space. -/
def Trimmed (s : Str) : Prop :=
  (∀ b, s.head? = some b → ¬ WsByte b) ∧ ∀ b, s.getLast? = some b → ¬ WsByte b

theorem wsByte_of {b : Byte} {t : Str} (h1 : isBreak (b :: t) = false)
    (h2 : isBlank (b :: t) = false) : ¬ WsByte b := by
  rintro (rfl | rfl | rfl | rfl) <;> simp_all [isBreak, isBlank, startsWith]

theorem Reads.drop_eq {a b : Cur} (h : Reads a b) :
    b.buf = a.buf.drop (b.stats.read - a.stats.read) := by
  obtain ⟨t, ht⟩ := h.suffix
  have := h.read
  rw [ht] at this ⊢
  simp at this
  have : b.stats.read - a.stats.read = t.length := by omega
  rw [this]; simp

/-- The state of the loops of a plain scalar; `v` is the text taken so far. -/
structure PlainInv (c : Cur) (st : PlainSt) (v : Str) : Prop where
  reads : Reads c st.cur
  borrow : st.canBorrow = true → st.scratch = [] ∧ c.buf = v ++ st.cur.buf ∧
    st.cur.stats.lines = c.stats.lines
  copy : st.canBorrow = false → st.scratch = v ∧ c.stats.lines < st.cur.stats.lines

theorem PlainInv.noBorrow {c : Cur} {st : PlainSt} {v : Str} (hP : P ∨ Ascii c.buf)
    (hi : PlainInv c st v) :
    Sat P (st.noBorrow c.buf) (fun st' => st' = { st with scratch := v, canBorrow := false }) := by
  unfold PlainSt.noBorrow
  split
  · rename_i h
    obtain ⟨hs, hv, -⟩ := hi.borrow h
    have hlen : c.buf.length - st.cur.buf.length = v.length := by rw [hv]; simp
    refine Out.Sat.bind (slice_sat (a := 0) hP (by omega) (by omega)) ?_
    rintro s rfl
    have : (c.buf.drop 0).take (c.buf.length - st.cur.buf.length - 0) = v := by
      rw [Nat.sub_zero, hlen, hv]; simp
    rw [this, hs]
    simp
  · rename_i h
    have h : st.canBorrow = false := by simpa using h
    simp only [Out.Sat.ok]
    rw [← (hi.copy h).1, ← h]

theorem PlainInv.push {c : Cur} {st : PlainSt} {v t : Str} {b : Byte} (hP : P ∨ Ascii c.buf)
    (hi : PlainInv c st v) (hbuf : st.cur.buf = b :: t) (hb : isBreak (b :: t) = false) :
    Sat P st.push (fun st' => PlainInv c st' (v ++ [b]) ∧ st'.cur.buf = t ∧
      Reads st.cur st'.cur ∧ st'.scalarStats = st.scalarStats ∧ st'.outdent = st.outdent ∧
      st'.whitespace = st.whitespace ∧ st'.lines = st.lines ∧ st'.canBorrow = st.canBorrow) := by
  unfold PlainSt.push
  have hA := hi.reads.ascii hP
  refine (adv_one hA (by simp [hbuf]) (by rw [hbuf]; exact hb)).bind ?_
  rintro c' ⟨hr, hb', hs', -⟩
  have hb' : c'.buf = t := by rw [hb', hbuf]; rfl
  have hl : c'.stats.lines = st.cur.stats.lines := by rw [hs']; simp [MStats.update]
  refine ⟨⟨hi.reads.trans hr, ?_, ?_⟩, hb', hr, rfl, rfl, rfl, rfl, rfl⟩
  · intro h
    have h : st.canBorrow = true := h
    obtain ⟨hs, hv, hl'⟩ := hi.borrow h
    exact ⟨by simp [h, hs], by simp [hb', hv, hbuf], by simp [hl, hl']⟩
  · intro h
    have h : st.canBorrow = false := h
    obtain ⟨hs, hl'⟩ := hi.copy h
    exact ⟨by simp [h, hs, hbuf], by simpa [hl] using hl'⟩

/-- The loop over a word takes everything up to white space or the end of the scalar. -/
theorem plainWord_sat {opts : SFlags} {block : Bool} {c : Cur} {fuel : Nat} {st : PlainSt} {v : Str}
    (hP : P ∨ Ascii c.buf) (hi : PlainInv c st v) (hf : st.cur.buf.length < fuel) :
    Sat P (plainWord opts block fuel st) (fun st' => ∃ w, PlainInv c st' (v ++ w) ∧
      (∀ b ∈ w, ¬ WsByte b) ∧ st.cur.buf = w ++ st'.cur.buf ∧ Reads st.cur st'.cur ∧
      (isWhiteSpaceZ st'.cur.buf = true ∨ plainEnd block st'.cur.buf = true) ∧
      (isWhiteSpaceZ st.cur.buf = false → plainEnd block st.cur.buf = false → w ≠ []) ∧
      st'.scalarStats = st.scalarStats ∧ st'.outdent = st.outdent ∧
      st'.whitespace = st.whitespace ∧ st'.lines = st.lines) := by
  induction fuel generalizing st v with
  | zero => omega
  | succ fuel ih =>
    rw [plainWord]
    split
    · rename_i hz
      exact ⟨[], by simpa using hi, by simp, rfl, .refl _, .inl hz, fun h => (by simp [hz] at h),
        rfl, rfl, rfl, rfl⟩
    · rename_i hz
      obtain ⟨b, t, hbuf, hnb, hbl⟩ := isWhiteSpaceZ_false hz
      refine cache_bind ?_
      split
      · rename_i he
        exact ⟨[], by simpa using hi, by simp, rfl, .refl _, .inr he,
          fun _ h => (by simp [he] at h), rfl, rfl, rfl, rfl⟩
      · refine (hi.push hP hbuf (hbuf ▸ hnb)).bind ?_
        rintro st1 ⟨hi1, hb1, hr1, hs1, ho1, hw1, hl1, -⟩
        refine (ih hi1 (by rw [hb1]; rw [hbuf] at hf; simp at hf; omega)).mono ?_
        rintro st2 ⟨w, hi2, hw2, hb2, hr2, hstop, -, hs2, ho2, hws2, hl2⟩
        refine ⟨b :: w, by simpa using hi2, ?_, by rw [hbuf, ← hb1, hb2]; rfl, hr1.trans hr2, hstop,
          fun _ _ => (by simp), hs2.trans hs1, ho2.trans ho1, hws2.trans hw1, hl2.trans hl1⟩
        intro x hx
        rcases List.mem_cons.1 hx with rfl | hx
        · rw [hbuf] at hnb hbl; exact wsByte_of hnb hbl
        · exact hw2 x hx

/-- The loop over white space. -/
theorem plainSpace_sat {opts : SFlags} {c : Cur} {fuel : Nat} {st : PlainSt} {v : Str}
    (hP : P ∨ Ascii c.buf) (hi : PlainInv c st v) (hl0 : st.canBorrow = true → st.lines = 0)
    (hf : st.cur.buf.length < fuel) :
    Sat P (plainSpace opts c.buf fuel st) (fun st' => ∃ bl, PlainInv c st' (v ++ bl) ∧
      st'.whitespace = st.whitespace + bl.length ∧ (∀ b ∈ bl, b = 0x20 ∨ b = 0x09) ∧
      Reads st.cur st'.cur ∧ isWhiteSpace st'.cur.buf = false ∧
      (isWhiteSpace st.cur.buf = true → st'.cur.buf.length < st.cur.buf.length) ∧
      (st'.canBorrow = true → st'.lines = 0) ∧
      st'.scalarStats = st.scalarStats ∧ st'.outdent = st.outdent) := by
  induction fuel generalizing st v with
  | zero => omega
  | succ fuel ih =>
    rw [plainSpace]
    refine cache_bind ?_
    split
    · rename_i hbl
      obtain ⟨b, t, hbuf, hb⟩ := isBlank_iff.1 hbl
      refine (hi.push hP hbuf (hbuf ▸ isBlank_break hbl)).bind ?_
      rintro st1 ⟨hi1, hb1, hr1, hs1, ho1, hw1, hl1, hc1⟩
      have hi1' : PlainInv c { st1 with whitespace := st1.whitespace + 1 } (v ++ [b]) :=
        ⟨hi1.reads, hi1.borrow, hi1.copy⟩
      refine (ih hi1' (fun h => hl1.trans (hl0 (hc1 ▸ h)))
        (by simp only [hb1]; rw [hbuf] at hf; simp at hf; omega)).mono ?_
      rintro st2 ⟨bl, hi2, hw2, hbl2, hr2, hns, -, hcb, hs2, ho2⟩
      refine ⟨b :: bl, by simpa using hi2, by simp at hw2 ⊢; omega, ?_, hr1.trans hr2, hns, ?_, hcb,
        hs2.trans hs1, ho2.trans ho1⟩
      · intro x hx
        rcases List.mem_cons.1 hx with rfl | hx
        · exact hb
        · exact hbl2 x hx
      · intro _
        have := hr2.length_le
        simp only [hb1] at this
        rw [hbuf]; simp; omega
    · split
      · rename_i hbr
        refine (hi.noBorrow hP).bind ?_
        rintro st1 rfl
        simp only
        refine (line_one (hi.reads.ascii hP) hbr).bind ?_
        rintro c' ⟨hr, -, hs', hlen⟩
        have hi1 : PlainInv c
            { st with scratch := v, canBorrow := false, cur := c', lines := st.lines + 1 } v := by
          refine ⟨hi.reads.trans hr, fun h => (by cases h), fun _ => ⟨rfl, ?_⟩⟩
          have := hi.reads.lines_le
          simp only [hs', MStats.update]
          omega
        refine (ih hi1 (fun h => by cases h) (by simp only; omega)).mono ?_
        rintro st2 ⟨bl, hi2, hw2, hbl2, hr2, hns, -, hcb, hs2, ho2⟩
        refine ⟨bl, hi2, hw2, hbl2, hr.trans hr2, hns, ?_, hcb, hs2, ho2⟩
        intro _
        have := hr2.length_le
        simp only at this
        omega
      · rename_i h1 h2
        refine ⟨[], by simpa using hi, by simp, by simp, .refl _, by simp [isWhiteSpace, h1, h2],
          ?_, hl0, rfl, rfl⟩
        intro h; simp [isWhiteSpace, h1, h2] at h

/-- The state between two rounds of the main loop: the contents so far are `pre`, which reached to
`cs` in the buffer; the rest of what was taken stands for the white space behind it. -/
structure PlainHead (c : Cur) (st : PlainSt) : Prop where
  intro ::
  ex : ∃ pre tail cs, PlainInv c st (pre ++ tail) ∧ tail.length = st.whitespace + st.lines ∧
    cs.stats = st.scalarStats ∧ Reads c cs ∧ Reads cs st.cur ∧ (P ∨ Ascii (pre ++ tail)) ∧
    (cs.stats.lines = c.stats.lines → c.buf = pre ++ cs.buf) ∧ Trimmed pre ∧ (pre = [] → tail = [])

theorem plainJoin_sat {st : PlainSt} {v bl : Str} {c : Cur} (hi : PlainInv c st (v ++ bl))
    (hw : st.whitespace = bl.length) (hl : st.canBorrow = true → st.lines = 0)
    (hbl : Ascii bl) :
    Sat P (plainJoin st) (fun st' => ∃ tail, PlainInv c st' (v ++ tail) ∧
      tail.length = st'.whitespace + st'.lines ∧ Ascii tail ∧ st'.cur = st.cur ∧
      st'.scalarStats = st.scalarStats ∧ st'.outdent = st.outdent) := by
  unfold plainJoin
  have nb : ∀ n, st.lines = n + 1 → st.canBorrow = false := by
    intro n hn
    cases h : st.canBorrow with
    | false => rfl
    | true => rw [hl h] at hn; omega
  split
  · rename_i h0
    exact ⟨bl, hi, by omega, hbl, rfl, rfl, rfl⟩
  · rename_i h1
    have hnb := nb 0 h1
    obtain ⟨hs, hlt⟩ := hi.copy hnb
    rw [hs]
    refine (truncEnd_sat hw.symm).bind ?_
    rintro s rfl
    refine ⟨[b! ' '], ⟨hi.reads, ?_, fun _ => ⟨rfl, hlt⟩⟩, by simp [h1], ?_, rfl, rfl, rfl⟩
    · intro h
      have h : st.canBorrow = true := h
      rw [hnb] at h; cases h
    · exact .cons (by decide) .nil
  · rename_i n h1
    have hnb := nb _ h1
    obtain ⟨hs, hlt⟩ := hi.copy hnb
    rw [hs]
    refine (truncEnd_sat hw.symm).bind ?_
    rintro s rfl
    refine ⟨List.replicate (n + 1) 0x0A, ⟨hi.reads, ?_, fun _ => ⟨rfl, hlt⟩⟩, by simp, ?_, rfl, rfl,
      rfl⟩
    · intro h
      have h : st.canBorrow = true := h
      rw [hnb] at h; cases h
    · exact Ascii.replicate _ (by decide)

theorem Ascii.of_prefix {s a b : Str} (h : P ∨ Ascii s) (hs : s = a ++ b) : P ∨ Ascii a := by
  rcases h with h | h
  · exact .inl h
  · subst hs; exact .inr h.left

theorem ascii_append {a b : Str} (ha : P ∨ Ascii a) (hb : P ∨ Ascii b) : P ∨ Ascii (a ++ b) := by
  rcases ha with h | h
  · exact .inl h
  · rcases hb with h' | h'
    · exact .inl h'
    · exact .inr (h.append h')

theorem trimmed_append {a w : Str} (ha : a = [] ∨ ∀ b, a.head? = some b → ¬ WsByte b)
    (hw : ∀ b ∈ w, ¬ WsByte b) (hne : w ≠ []) : Trimmed (a ++ w) := by
  constructor
  · intro b hb
    cases a with
    | nil =>
      cases w with
      | nil => simp at hne
      | cons x w => simp at hb; subst hb; exact hw _ (by simp)
    | cons y a =>
      simp at hb; subst hb
      rcases ha with h | h
      · simp at h
      · exact h _ rfl
  · intro b hb
    have : (a ++ w).getLast? = w.getLast? := by
      rw [List.getLast?_append]
      cases h : w.getLast? with
      | none => rw [List.getLast?_eq_none_iff] at h; exact absurd h hne
      | some x => rfl
    rw [this] at hb
    exact hw b (List.mem_of_getLast? hb)

/-- The start of a plain scalar, as the scanner dispatches it. -/
structure PlainStart (block : Bool) (c : Cur) : Prop where
  ws : isWhiteSpaceZ c.buf = false
  notEnd : plainEnd block c.buf = false
  comment : startsWith c.buf b! '#' = false
  marker : isDocumentIndicator c.buf c.stats.column = false

theorem plainLoop_sat {opts : SFlags} {indent : Nat} {block : Bool} {c : Cur} {fuel : Nat}
    {st : PlainSt} (hP : P ∨ Ascii c.buf) (hh : PlainHead (P := P) c st)
    (hf : st.cur.buf.length < fuel) (hns : isWhiteSpace st.cur.buf = false) :
    Sat P (plainLoop opts c.buf indent block fuel st) (fun st' => PlainHead (P := P) c st' ∧
      (PlainStart block st.cur → st.outdent = false →
        st.cur.stats.read < st'.scalarStats.read) ∧
      (∃ cs, cs.stats = st'.scalarStats ∧ Reads c cs ∧ cs.buf.length ≤ c.buf.length) ∧
      st.scalarStats.read ≤ st'.scalarStats.read) := by
  induction fuel generalizing st with
  | zero => omega
  | succ fuel ih =>
    rw [plainLoop]
    refine cache_bind ?_
    have stop : ∀ (_ : PlainStart block st.cur → st.outdent = false → False),
        Sat (ε := ScanError) P (.ok st) (fun st' => PlainHead (P := P) c st' ∧
      (PlainStart block st.cur → st.outdent = false →
        st.cur.stats.read < st'.scalarStats.read) ∧
      (∃ cs, cs.stats = st'.scalarStats ∧ Reads c cs ∧ cs.buf.length ≤ c.buf.length) ∧
      st.scalarStats.read ≤ st'.scalarStats.read) := by
      intro hno
      obtain ⟨pre, tail, cs, -, -, h3, h4, -⟩ := hh.ex
      exact ⟨hh, fun h h' => absurd (hno h h') id, ⟨cs, h3, h4, h4.length_le⟩, Nat.le_refl _⟩
    split
    · rename_i h
      refine stop fun hs _ => ?_
      have := hs.ws
      simp [isWhiteSpaceZ, h] at this
    split
    · rename_i h
      exact stop fun _ ho => by simp [h] at ho
    split
    · rename_i h
      refine stop fun hs _ => ?_
      simp [hs.marker, hs.comment] at h
    split
    · rename_i h
      refine stop fun hs _ => ?_
      simp [hs.notEnd] at h
    rename_i hne hod hmk hpe
    obtain ⟨pre, tail, cs, hi, htl, hcs, hr1, hr2, has, hone, htr, hnil⟩ := hh.ex
    have hi0 : PlainInv c { st with whitespace := 0, lines := 0 } (pre ++ tail) :=
      ⟨hi.reads, hi.borrow, hi.copy⟩
    have hlen := hi.reads.length_le
    refine (plainWord_sat (opts := opts) (block := block) (fuel := c.buf.length + 1) hP hi0
      (by simp only; omega)).bind ?_
    rintro st1 ⟨w, hi1, hw1, hb1, hrd1, hstop1, hprog1, hs1, ho1, hws1, hl1⟩
    simp only at hb1 hprog1 hws1 hl1 hrd1
    have hz : isWhiteSpaceZ st.cur.buf = false := by
      simp only [isWhiteSpaceZ, Bool.or_eq_false_iff]
      simp only [isWhiteSpace, Bool.or_eq_false_iff] at hns
      exact ⟨hns, by simpa using hne⟩
    have hwne : w ≠ [] := hprog1 hz (by simpa using hpe)
    have hlt1 : st1.cur.buf.length < st.cur.buf.length := by
      rw [hb1]
      have := List.length_pos_iff.2 hwne
      simp
      omega
    have hi1' : PlainInv c { st1 with scalarStats := st1.cur.stats } (pre ++ tail ++ w) :=
      ⟨hi1.reads, hi1.borrow, hi1.copy⟩
    have hlen1 := hi1.reads.length_le
    refine (plainSpace_sat (opts := opts) (fuel := c.buf.length + 1) hP hi1' (fun _ => hl1)
      (by simp only; omega)).bind ?_
    rintro st2 ⟨bl, hi2, hw2, hbl2, hrd2, hns2, -, hcb2, hs2, ho2⟩
    simp only [hws1, Nat.zero_add] at hw2
    have hblA : Ascii bl := by
      intro b hb
      rcases hbl2 b hb with rfl | rfl <;> decide
    have hi2' : PlainInv c { st2 with outdent := block && decide (st2.cur.stats.column < indent) }
        (pre ++ tail ++ w ++ bl) := ⟨hi2.reads, hi2.borrow, hi2.copy⟩
    refine (plainJoin_sat hi2' hw2 hcb2 hblA).bind ?_
    rintro st3 ⟨tail3, hi3, htl3, hA3, hcur3, hs3, ho3⟩
    simp only at hcur3 hs3
    -- the word ends at `st1.cur`
    have hwA : P ∨ Ascii w := Ascii.of_prefix (hi.reads.ascii hP) hb1
    have hcs1 : st3.scalarStats = st1.cur.stats := hs3.trans hs2
    have hh3 : PlainHead (P := P) c st3 := by
      refine ⟨⟨pre ++ tail ++ w, tail3, st1.cur, hi3, htl3, hcs1.symm, hi1.reads, ?_, ?_, ?_, ?_,
        fun h => absurd h (by simp [hwne])⟩⟩
      · rw [hcur3]; exact hrd2
      · exact ascii_append (ascii_append has hwA) (.inr hA3)
      · intro hl
        cases hb : st1.canBorrow with
        | true => exact (hi1.borrow hb).2.1
        | false => have := (hi1.copy hb).2; omega
      · refine trimmed_append ?_ hw1 hwne
        cases pre with
        | nil =>
          left
          simp [hnil rfl]
        | cons x pre => right; intro b hb; exact htr.1 b (by simpa using hb)
    have hread1 : st.cur.stats.read < st1.cur.stats.read := by
      have := hrd1.read
      omega
    have hns3 : isWhiteSpace st3.cur.buf = false := by rw [hcur3]; exact hns2
    have hlt3 : st3.cur.buf.length < st.cur.buf.length := by
      rw [hcur3]
      have := hrd2.length_le
      simp only at this
      omega
    refine (ih hh3 (by omega) hns3).mono ?_
    rintro st4 ⟨g1, -, g3, g4⟩
    rw [hcs1] at g4
    refine ⟨g1, fun _ _ => by omega, g3, ?_⟩
    have := hr2.read_le
    rw [hcs] at this
    omega

/-- A plain scalar, read eagerly: at least one byte is read; the contents neither start nor end
with white space; and if no line break was read they are the text that was read. -/
theorem scanPlainEager_sat {opts : SFlags} {indent : Nat} {block : Bool} {c : Cur}
    (hP : P ∨ Ascii c.buf) (hst : PlainStart block c) :
    Sat P (scanPlainEager opts indent block c) (fun r => Reads c r.2 ∧
      r.2.buf.length < c.buf.length ∧ ∃ s, r.1 = .Scalar s .Plain ∧ Trimmed s ∧
      (r.2.stats.lines = c.stats.lines → c.buf = s ++ r.2.buf)) := by
  rw [scanPlainEager_eq]
  refine cache_bind ?_
  split
  · simp
  have hns : isWhiteSpace c.buf = false := by
    have := hst.ws
    simp only [isWhiteSpaceZ, Bool.or_eq_false_iff] at this
    simp [isWhiteSpace, this]
  have hh : PlainHead (P := P) c { cur := c, scalarStats := c.stats } := by
    refine ⟨⟨[], [], c, ⟨.refl c, fun _ => ⟨rfl, rfl, rfl⟩, fun h => (by cases h)⟩, rfl, rfl, .refl c,
      .refl c, .inr .nil, fun _ => rfl, ⟨by simp, by simp⟩, fun _ => rfl⟩⟩
  refine (plainLoop_sat (opts := opts) (indent := indent) (block := block)
    (fuel := c.buf.length + 1) hP hh (by simp) hns).bind ?_
  rintro st ⟨hh, hprog, -, -⟩
  have hprog := hprog hst rfl
  simp only at hprog
  obtain ⟨pre, tail, cs, hi, htl, hcs, hr1, hr2, has, hone, htr, -⟩ := hh.ex
  rw [← hcs] at hprog ⊢
  have hread := hr1.read
  have hadv : cs.stats.read - c.stats.read ≤ c.buf.length := by omega
  have hcsbuf := hr1.drop_eq
  have hslice : Sat P (plainSlice c.buf st (cs.stats.read - c.stats.read)) (fun s => s = pre) := by
    unfold plainSlice
    split
    · rename_i hb
      obtain ⟨-, hv, hl⟩ := hi.borrow hb
      refine (slice_sat (a := 0) hP (by omega) hadv).mono ?_
      rintro s rfl
      have hl1 := hr1.lines_le
      have hl2 := hr2.lines_le
      have h1 := hone (by omega)
      have : cs.stats.read - c.stats.read = pre.length := by
        rw [h1] at hread
        simp at hread
        omega
      rw [this, h1]
      simp
    · rename_i hb
      have hb : st.canBorrow = false := by simpa using hb
      rw [(hi.copy hb).1]
      refine (truncEnd_sat htl).bind ?_
      rintro s rfl
      unfold fromUtf8Unwrap
      split
      · rfl
      · rename_i hv
        rcases has with h | h
        · exact h
        · exact absurd h.left.validUtf8 hv
  refine hslice.bind ?_
  rintro s rfl
  refine Out.Sat.bind (skip_sat (c := ⟨c.buf, cs.stats⟩) hP hadv) ?_
  rintro r rfl
  simp only [Out.Sat.ok]
  rw [← hcsbuf]
  refine ⟨hr1, by omega, s, rfl, htr, hone⟩

/-- The state of the lazy variant: the scalar reached to `cs`. -/
structure PlainLazyHead (c : Cur) (st : PlainLazySt) : Prop where
  intro ::
  ex : ∃ cs, cs.stats = st.scalarStats ∧ Reads c cs ∧ Reads cs st.cur

theorem plainLazyWord_sat {opts : SFlags} {block : Bool} {c : Cur} {fuel : Nat} {st : PlainLazySt}
    (hP : P ∨ Ascii c.buf) (hr : Reads c st.cur) (hf : st.cur.buf.length < fuel) :
    Sat P (plainLazyWord opts block fuel st) (fun r =>
      ∃ cs, Reads c cs ∧ Reads st.cur cs ∧
        (isWhiteSpaceZ st.cur.buf = false → plainEnd block st.cur.buf = false →
          cs.buf.length < st.cur.buf.length) ∧
        r.2.cur.buf = cs.buf ∧ r.2.outdent = st.outdent ∧
        (r.1 = false → r.2.cur = cs ∧ isWhiteSpaceZ cs.buf = true) ∧
        (r.1 = true → r.2.scalarStats = cs.stats ∧ cs.stats.read ≤ r.2.cur.stats.read ∧
          r.2.cur.stats.read ≤ cs.stats.read + cs.buf.length)) := by
  induction fuel generalizing st with
  | zero => omega
  | succ fuel ih =>
    rw [plainLazyWord]
    split
    · rename_i hz
      exact ⟨st.cur, hr, .refl _, fun h => (by simp [hz] at h), rfl, rfl, fun _ => ⟨rfl, hz⟩,
        fun h => (by cases h)⟩
    · rename_i hz
      obtain ⟨b, t, hbuf, hnb, hbl⟩ := isWhiteSpaceZ_false hz
      refine cache_bind ?_
      split
      · rename_i he
        refine ⟨st.cur, hr, .refl _, fun _ h => (by simp [he] at h), rfl, rfl, fun h => (by cases h),
          fun _ => ⟨rfl, by simp [MStats.update], ?_⟩⟩
        simp only [MStats.update, hbuf, List.drop_succ_cons, List.drop_zero, List.length_cons]
        split
        · rename_i h
          cases t with
          | nil => simp [isWhiteSpace, isBlank, isBreak, startsWith] at h
          | cons x t => simp
        · omega
      · rename_i he
        refine (adv_one (hr.ascii hP) (by simp [hbuf]) hnb).bind ?_
        rintro c1 ⟨h1, hb1, -, hl1⟩
        refine (ih (st := { st with cur := c1 }) (hr.trans h1) (by simp only; omega)).mono ?_
        rintro r ⟨cs, g1, g2, -, g4, g5, g6, g7⟩
        refine ⟨cs, g1, h1.trans g2, fun _ _ => ?_, g4, g5, g6, g7⟩
        have := g2.length_le
        simp only at this
        omega

theorem plainLazySpace_sat {opts : SFlags} {c : Cur} {fuel : Nat} {st : PlainLazySt}
    (hP : P ∨ Ascii c.buf) (hr : Reads c st.cur) (hf : st.cur.buf.length < fuel) :
    Sat P (plainLazySpace opts fuel st) (fun st' => Reads st.cur st'.cur ∧
      isWhiteSpace st'.cur.buf = false ∧ st'.scalarStats = st.scalarStats) := by
  induction fuel generalizing st with
  | zero => omega
  | succ fuel ih =>
    rw [plainLazySpace]
    refine cache_bind ?_
    have next : ∀ c1, Reads st.cur c1 → c1.buf.length + 1 ≤ st.cur.buf.length →
        Sat P (plainLazySpace opts fuel { st with cur := c1 }) (fun st' => Reads st.cur st'.cur ∧
          isWhiteSpace st'.cur.buf = false ∧ st'.scalarStats = st.scalarStats) := by
      intro c1 h1 hl
      refine (ih (st := { st with cur := c1 }) (hr.trans h1) (by simp only; omega)).mono ?_
      rintro st' ⟨g1, g2, g3⟩
      exact ⟨h1.trans g1, g2, g3⟩
    split
    · rename_i hbl
      obtain ⟨b, t, hbuf, hb⟩ := isBlank_iff.1 hbl
      refine (adv_one (hr.ascii hP) (by simp [hbuf]) (isBlank_break hbl)).bind ?_
      rintro c1 ⟨h1, -, -, hl1⟩
      exact next c1 h1 (by omega)
    · split
      · rename_i hbr
        refine (line_one (hr.ascii hP) hbr).bind ?_
        rintro c1 ⟨h1, -, -, hl1⟩
        exact next c1 h1 hl1
      · rename_i h1 h2
        exact ⟨.refl _, by simp [isWhiteSpace, h1, h2], rfl⟩

theorem plainLazyLoop_sat {opts : SFlags} {indent : Nat} {block : Bool} {c : Cur} {fuel : Nat}
    {st : PlainLazySt} {cs : Cur} (hP : P ∨ Ascii c.buf) (h1 : cs.stats = st.scalarStats)
    (h2 : Reads c cs) (h3 : Reads cs st.cur)
    (hf : st.cur.buf.length < fuel) (hns : isWhiteSpace st.cur.buf = false) :
    Sat P (plainLazyLoop opts c.buf indent block fuel st) (fun st' =>
      ∃ cs', cs'.stats = st'.scalarStats ∧ Reads c cs' ∧ Reads cs cs' ∧
        cs'.stats.read ≤ st'.cur.stats.read ∧
        st'.cur.stats.read ≤ c.stats.read + c.buf.length ∧
        (PlainStart block st.cur → st.outdent = false →
          cs'.buf.length < st.cur.buf.length)) := by
  induction fuel generalizing st cs with
  | zero => omega
  | succ fuel ih =>
    rw [plainLazyLoop]
    refine cache_bind ?_
    have hrd := h2.trans h3
    have stop : ∀ (_ : PlainStart block st.cur → st.outdent = false → False),
        Sat (ε := ScanError) P (.ok st) (fun st' =>
      ∃ cs', cs'.stats = st'.scalarStats ∧ Reads c cs' ∧ Reads cs cs' ∧
        cs'.stats.read ≤ st'.cur.stats.read ∧
        st'.cur.stats.read ≤ c.stats.read + c.buf.length ∧
        (PlainStart block st.cur → st.outdent = false →
          cs'.buf.length < st.cur.buf.length)) := by
      intro hno
      exact ⟨cs, h1, h2, .refl _, h3.read_le, by have := hrd.read; omega,
        fun h h' => absurd (hno h h') id⟩
    split
    · rename_i h
      refine stop fun hs _ => ?_
      have := hs.ws
      simp [isWhiteSpaceZ, h] at this
    split
    · rename_i h
      exact stop fun _ ho => by simp [h] at ho
    split
    · rename_i h
      refine stop fun hs _ => ?_
      simp [hs.marker, hs.comment] at h
    split
    · rename_i h
      refine stop fun hs _ => ?_
      simp [hs.notEnd] at h
    rename_i hne hod hmk hpe
    have hz : isWhiteSpaceZ st.cur.buf = false := by
      simp only [isWhiteSpaceZ, Bool.or_eq_false_iff]
      simp only [isWhiteSpace, Bool.or_eq_false_iff] at hns
      exact ⟨hns, by simpa using hne⟩
    have hlen := hrd.length_le
    refine (plainLazyWord_sat (opts := opts) (block := block) (fuel := c.buf.length + 1) hP hrd
      (by omega)).bind ?_
    rintro ⟨done, st1⟩ ⟨cs1, g1, g2, g3, g4, g5, g6, g7⟩
    have g3 := g3 hz (by simpa using hpe)
    simp only at g4 g5 g6 g7
    cases done with
    | true =>
      simp only [↓reduceIte, Out.Sat.ok]
      obtain ⟨k1, k2, k3⟩ := g7 rfl
      exact ⟨cs1, k1.symm, g1, h3.trans g2, k2, by have := g1.read; omega, fun _ _ => g3⟩
    | false =>
      simp only [Bool.false_eq_true, ↓reduceIte]
      obtain ⟨k1, -⟩ := g6 rfl
      rw [k1]
      have hlen1 := g1.length_le
      refine (plainLazySpace_sat (c := c) (opts := opts) (fuel := c.buf.length + 1)
        (st := { st1 with cur := cs1, scalarStats := cs1.stats }) hP g1
        (by simp only; omega)).bind ?_
      rintro st2 ⟨m1, m2, m3⟩
      simp only at m1 m3
      have hlen2 := m1.length_le
      refine (ih (st := { st2 with outdent := block && decide (st2.cur.stats.column < indent) })
        (cs := cs1) m3.symm g1 m1 (by simp only; omega) m2).mono ?_
      rintro st3 ⟨cs', n1, n2, n3, n4, n5, -⟩
      refine ⟨cs', n1, n2, (h3.trans g2).trans n3, n4, n5, fun _ _ => ?_⟩
      have := n3.length_le
      omega

/-- A plain scalar, put off. -/
theorem scanPlainLazy_sat {opts : SFlags} {indent : Nat} {block : Bool} {c : Cur}
    (hP : P ∨ Ascii c.buf) (hst : PlainStart block c) :
    Sat P (scanPlainLazy opts indent block c) (fun r => Reads c r.2 ∧
      r.2.buf.length < c.buf.length) := by
  rw [scanPlainLazy_eq]
  have hns : isWhiteSpace c.buf = false := by
    have := hst.ws
    simp only [isWhiteSpaceZ, Bool.or_eq_false_iff] at this
    simp [isWhiteSpace, this]
  refine (plainLazyLoop_sat (opts := opts) (indent := indent) (block := block) (cs := c)
    (fuel := c.buf.length + 1) (st := { cur := c, scalarStats := c.stats }) hP rfl (.refl _)
    (.refl _) (by simp) hns).bind ?_
  rintro st ⟨cs, h1, h2, -, h4, h5, h6⟩
  have h6 := h6 hst rfl
  simp only at h6
  have hread := h2.read
  have hcsbuf := h2.drop_eq
  refine (slice_sat (a := 0) hP (by omega) (by omega)).bind ?_
  rintro s -
  rw [← h1]
  refine Out.Sat.bind (skip_sat (c := ⟨c.buf, cs.stats⟩) hP (by simp only; omega)) ?_
  rintro r rfl
  simp only [Out.Sat.ok]
  rw [← hcsbuf]
  exact ⟨h2, h6⟩

end Yary
