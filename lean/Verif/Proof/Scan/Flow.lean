import Verif.Proof.Scan.Sub
import Verif.Proof.Scan.Utf8

/-! # Quoted scalars: termination, panics, and what is read -/

namespace Yary

open Out (Sat)

variable {P : Prop}

theorem readHex_sat (n v : Nat) (s : Str) :
    Sat P (readHex n v s) (fun r => n ≤ s.length ∧ (∀ b ∈ s.take n, isHexDigit b = true) ∧
      r < (v + 1) * 16 ^ n ∧ Spec.hexFrom v (s.take n) = some r) := by
  induction n generalizing v s with
  | zero => simp [readHex, Spec.hexFrom]
  | succ n ih =>
    cases s with
    | nil => simp [readHex]
    | cons b t =>
      rw [readHex]
      split
      · rename_i hb
        refine (ih _ _).mono ?_
        rintro r ⟨h1, h2, h3, h4⟩
        refine ⟨by simpa using h1, ?_, ?_, ?_⟩
        · intro x hx
          simp only [List.take_succ_cons, List.mem_cons] at hx
          rcases hx with rfl | hx
          · exact hb
          · exact h2 x hx
        rotate_left
        · simp [Spec.hexFrom, hexDigit_eq, hb, h4]
        · have := asHex_lt hb
          rw [Nat.pow_succ]
          calc r < (v * 16 + asHex b + 1) * 16 ^ n := h3
            _ ≤ ((v + 1) * 16) * 16 ^ n := Nat.mul_le_mul_right _ (by omega)
            _ = (v + 1) * (16 ^ n * 16) := by rw [Nat.mul_assoc, Nat.mul_comm 16]
      · simp

theorem ite_or {α : Type} {p : Prop} [Decidable p] {x y r : α} (h : (if p then x else y) = r) :
    (p ∧ x = r) ∨ (¬ p ∧ y = r) := by
  split at h
  · exact .inl ⟨by assumption, h⟩
  · exact .inr ⟨by assumption, h⟩

theorem escapeKind_bytes {b : Byte} {t w : Str} (h : escapeKind (b :: t) = .bytes w) :
    validUtf8 w = true ∧ NoBrk b := by
  unfold escapeKind at h
  rcases ite_or h with ⟨hb, h⟩ | ⟨-, h⟩
  · injection h with h; subst h; subst hb; exact ⟨by decide +kernel, by decide⟩
  rcases ite_or h with ⟨hb, h⟩ | ⟨-, h⟩
  · injection h with h; subst h; subst hb; exact ⟨by decide +kernel, by decide⟩
  rcases ite_or h with ⟨hb, h⟩ | ⟨-, h⟩
  · injection h with h; subst h; subst hb; exact ⟨by decide +kernel, by decide⟩
  rcases ite_or h with ⟨hb, h⟩ | ⟨-, h⟩
  · injection h with h; subst h; simp at hb; rcases hb with hb | hb <;> subst hb <;>
      exact ⟨by decide +kernel, by decide⟩
  rcases ite_or h with ⟨hb, h⟩ | ⟨-, h⟩
  · injection h with h; subst h; subst hb; exact ⟨by decide +kernel, by decide⟩
  rcases ite_or h with ⟨hb, h⟩ | ⟨-, h⟩
  · injection h with h; subst h; subst hb; exact ⟨by decide +kernel, by decide⟩
  rcases ite_or h with ⟨hb, h⟩ | ⟨-, h⟩
  · injection h with h; subst h; subst hb; exact ⟨by decide +kernel, by decide⟩
  rcases ite_or h with ⟨hb, h⟩ | ⟨-, h⟩
  · injection h with h; subst h; subst hb; exact ⟨by decide +kernel, by decide⟩
  rcases ite_or h with ⟨hb, h⟩ | ⟨-, h⟩
  · injection h with h; subst h; subst hb; exact ⟨by decide +kernel, by decide⟩
  rcases ite_or h with ⟨hb, h⟩ | ⟨-, h⟩
  · injection h with h; subst h; subst hb; exact ⟨by decide +kernel, by decide⟩
  rcases ite_or h with ⟨hb, h⟩ | ⟨-, h⟩
  · injection h with h; subst h; subst hb; exact ⟨by decide +kernel, by decide⟩
  rcases ite_or h with ⟨hb, h⟩ | ⟨-, h⟩
  · injection h with h; subst h; subst hb; exact ⟨by decide +kernel, by decide⟩
  rcases ite_or h with ⟨hb, h⟩ | ⟨-, h⟩
  · injection h with h; subst h; subst hb; exact ⟨by decide +kernel, by decide⟩
  rcases ite_or h with ⟨hb, h⟩ | ⟨-, h⟩
  · injection h with h; subst h; subst hb; exact ⟨by decide +kernel, by decide⟩
  rcases ite_or h with ⟨hb, h⟩ | ⟨-, h⟩
  · injection h with h; subst h; subst hb; exact ⟨by decide +kernel, by decide⟩
  rcases ite_or h with ⟨hb, h⟩ | ⟨-, h⟩
  · injection h with h; subst h; subst hb; exact ⟨by decide +kernel, by decide⟩
  rcases ite_or h with ⟨hb, h⟩ | ⟨-, h⟩
  · injection h with h; subst h; subst hb; exact ⟨by decide +kernel, by decide⟩
  rcases ite_or h with ⟨hb, h⟩ | ⟨-, h⟩
  · cases h
  rcases ite_or h with ⟨hb, h⟩ | ⟨-, h⟩
  · cases h
  rcases ite_or h with ⟨hb, h⟩ | ⟨-, h⟩
  · cases h
  cases h

theorem escapeKind_code {b : Byte} {t : Str} {n : Nat} (h : escapeKind (b :: t) = .code n) :
    (b = b! 'x' ∧ n = 2) ∨ (b = b! 'u' ∧ n = 4) ∨ (b = b! 'U' ∧ n = 8) := by
  unfold escapeKind at h
  rcases ite_or h with ⟨hb, h⟩ | ⟨-, h⟩
  · cases h
  rcases ite_or h with ⟨hb, h⟩ | ⟨-, h⟩
  · cases h
  rcases ite_or h with ⟨hb, h⟩ | ⟨-, h⟩
  · cases h
  rcases ite_or h with ⟨hb, h⟩ | ⟨-, h⟩
  · cases h
  rcases ite_or h with ⟨hb, h⟩ | ⟨-, h⟩
  · cases h
  rcases ite_or h with ⟨hb, h⟩ | ⟨-, h⟩
  · cases h
  rcases ite_or h with ⟨hb, h⟩ | ⟨-, h⟩
  · cases h
  rcases ite_or h with ⟨hb, h⟩ | ⟨-, h⟩
  · cases h
  rcases ite_or h with ⟨hb, h⟩ | ⟨-, h⟩
  · cases h
  rcases ite_or h with ⟨hb, h⟩ | ⟨-, h⟩
  · cases h
  rcases ite_or h with ⟨hb, h⟩ | ⟨-, h⟩
  · cases h
  rcases ite_or h with ⟨hb, h⟩ | ⟨-, h⟩
  · cases h
  rcases ite_or h with ⟨hb, h⟩ | ⟨-, h⟩
  · cases h
  rcases ite_or h with ⟨hb, h⟩ | ⟨-, h⟩
  · cases h
  rcases ite_or h with ⟨hb, h⟩ | ⟨-, h⟩
  · cases h
  rcases ite_or h with ⟨hb, h⟩ | ⟨-, h⟩
  · cases h
  rcases ite_or h with ⟨hb, h⟩ | ⟨-, h⟩
  · cases h
  rcases ite_or h with ⟨hb, h⟩ | ⟨-, h⟩
  · injection h with h; subst h; subst hb; simp
  rcases ite_or h with ⟨hb, h⟩ | ⟨-, h⟩
  · injection h with h; subst h; subst hb; simp
  rcases ite_or h with ⟨hb, h⟩ | ⟨-, h⟩
  · injection h with h; subst h; subst hb; simp
  cases h

theorem validUtf8_encodePoint {v : Nat} (h : v < 0xD800 ∨ (0xDFFF < v ∧ v < 0x110000)) :
    validUtf8 (encodePoint v) = true := by
  obtain ⟨c, rfl⟩ := exists_char h
  rw [encodePoint_char]
  have := validUtf8_utf8Char c []
  simpa [validUtf8] using this

/-- An escape sequence: it contains no line break, and what it writes is valid unless it encodes
what is no Unicode scalar value. -/
theorem flowUnescape_sat {opts : SFlags} {t : Str} :
    Sat P (flowUnescape opts (0x5C :: t)) (fun r => 2 ≤ r.2 ∧ r.2 ≤ t.length + 1 ∧
      (∀ b ∈ (0x5C :: t).take r.2, NoBrk b) ∧
      (NoUni (0x5C :: t) → validUtf8 r.1 = true)) := by
  unfold flowUnescape
  refine cache_bind ?_
  simp only [startsWith, List.head?_cons, beq_self_eq_true, Bool.not_true, Bool.false_eq_true,
    ↓reduceIte, List.drop_succ_cons, List.drop_zero]
  refine cache_bind ?_
  cases t with
  | nil => simp [escapeKind]
  | cons b t =>
    cases hk : escapeKind (b :: t) with
    | eof => simp
    | unknown => simp
    | bytes w =>
      obtain ⟨hw, hb⟩ := escapeKind_bytes hk
      refine ⟨by simp, by simp, ?_, fun _ => hw⟩
      intro x hx
      simp at hx
      rcases hx with rfl | rfl
      · decide
      · exact hb
    | code n =>
      simp only [List.drop_succ_cons, List.drop_zero]
      refine cache_bind ?_
      refine (readHex_sat _ _ _).bind ?_
      rintro v ⟨h1, h2, h3, h4⟩
      have hk := escapeKind_code hk
      refine ⟨by simp, by simp; omega, ?_, ?_⟩
      · intro x hx
        rw [Nat.add_comm] at hx
        simp only [List.take_succ_cons, List.mem_cons] at hx
        rcases hx with rfl | rfl | hx
        · decide
        · rcases hk with ⟨rfl, -⟩ | ⟨rfl, -⟩ | ⟨rfl, -⟩ <;> decide
        · exact isHexDigit_noBrk (h2 x hx)
      · rcases hk with ⟨rfl, rfl⟩ | ⟨rfl, rfl⟩ | ⟨rfl, rfl⟩
        · intro _
          refine validUtf8_encodePoint ?_
          simp at h3
          omega
        · intro hU
          refine validUtf8_encodePoint (hU [] (t.take 4) (t.drop 4) v (.inl ⟨?_, by simp; omega⟩) h4)
          simp
        · intro hU
          refine validUtf8_encodePoint (hU [] (t.take 8) (t.drop 8) v (.inr ⟨?_, by simp; omega⟩) h4)
          simp

/-- The state of the loops: what was read of the scalar, and the text `v` it stands for so far. -/
structure FlowInv (c : Cur) (st : FlowSt) (v : Str) : Prop where
  reads : Reads c st.cur
  borrow : st.canBorrow = true → st.scratch = [] ∧ ∃ q, c.buf = q :: v ++ st.cur.buf
  copy : st.canBorrow = false → st.scratch = v
  valid : P ∨ validUtf8 v = true

theorem slice_sat {s : Str} {a b : Nat} (hP : P ∨ Ascii s) (hab : a ≤ b) (hb : b ≤ s.length) :
    Sat (ε := ScanError) P (slice s a b) (fun r => r = (s.drop a).take (b - a)) := by
  unfold slice
  split
  · simp
  · rename_i h
    rcases hP with hP | hP
    · exact hP
    · exact absurd (by simp [hab, hP.boundary (n := a) (by omega), hP.boundary hb]) h

theorem FlowInv.noBorrow {c : Cur} {st : FlowSt} {v : Str} (hP : P ∨ Ascii c.buf)
    (hi : FlowInv (P := P) c st v) :
    Sat P (st.noBorrow c.buf) (fun st' => st' = { st with scratch := v, canBorrow := false } ∧
      FlowInv (P := P) c st' v) := by
  unfold FlowSt.noBorrow
  split
  · rename_i h
    obtain ⟨hs, q, hq⟩ := hi.borrow h
    have hlen : c.buf.length - st.cur.buf.length = v.length + 1 := by
      rw [hq]; simp; omega
    refine Out.Sat.bind (slice_sat (a := 1) hP (by omega) (by omega)) ?_
    rintro s rfl
    have : (c.buf.drop 1).take (c.buf.length - st.cur.buf.length - 1) = v := by
      rw [hlen, hq]; simp
    rw [this, hs]
    exact ⟨rfl, hi.reads, fun h => (by cases h), fun _ => rfl, hi.valid⟩
  · rename_i h
    have h : st.canBorrow = false := by simpa using h
    refine ⟨?_, hi⟩
    rw [← hi.copy h, ← h]

theorem FlowInv.push {c : Cur} {st : FlowSt} {v t : Str} {b : Byte} (hP : P ∨ Ascii c.buf)
    (hi : FlowInv (P := P) c st v) (hbuf : st.cur.buf = b :: t) (hb : isBreak (b :: t) = false) :
    Sat P st.push (fun st' => FlowInv (P := P) c st' (v ++ [b]) ∧ st'.cur.buf = t ∧
      st'.escapedBreak = st.escapedBreak ∧ st'.whitespace = st.whitespace ∧
      st'.lines = st.lines ∧ st'.canBorrow = st.canBorrow) := by
  unfold FlowSt.push
  have hA := hi.reads.ascii hP
  refine (adv_one hA (by simp [hbuf]) (by rw [hbuf]; exact hb)).bind ?_
  rintro c' ⟨hr, hb', -, -⟩
  have hb' : c'.buf = t := by rw [hb', hbuf]; rfl
  refine ⟨⟨hi.reads.trans hr, ?_, ?_, ?_⟩, hb', rfl, rfl, rfl, rfl⟩
  · intro h
    have h : st.canBorrow = true := h
    obtain ⟨hs, q, hq⟩ := hi.borrow h
    exact ⟨by simp [h, hs], q, by simp [hb', hq, hbuf]⟩
  · intro h
    have h : st.canBorrow = false := h
    simp [h, hi.copy h, hbuf]
  · rcases hi.valid with h | h
    · exact .inl h
    · rcases hA with hA | hA
      · exact .inl hA
      · right
        rw [validUtf8_append h]
        exact Ascii.validUtf8 (.cons (hA b (by simp [hbuf])) .nil)

theorem isWhiteSpaceZ_false {s : Str} (h : ¬ isWhiteSpaceZ s = true) :
    ∃ b t, s = b :: t ∧ isBreak s = false ∧ isBlank s = false := by
  unfold isWhiteSpaceZ at h
  cases s with
  | nil => simp at h
  | cons b t =>
    simp only [List.isEmpty_cons, Bool.or_false, Bool.or_eq_true, not_or, Bool.not_eq_true] at h
    exact ⟨b, t, rfl, h.2, h.1⟩

/-- What `flowWord` leaves: it stopped at the closing quote, or before whitespace or the end. -/
structure WordOut (c : Cur) (single : Bool) (st : FlowSt) (done : Bool) (st' : FlowSt) : Prop where
  inv : ∃ v, FlowInv (P := P) c st' v
  le : st'.cur.buf.length ≤ st.cur.buf.length
  close : done = true → ∃ t, st'.cur.buf = (if single then 0x27 else b! '"') :: t
  stop : done = false → isWhiteSpaceZ st'.cur.buf = true
  lt : done = false → isWhiteSpaceZ st.cur.buf = false → st'.cur.buf.length < st.cur.buf.length

theorem flowWord_sat {opts : SFlags} {single : Bool} {c : Cur} {fuel : Nat} {st : FlowSt} {v : Str}
    (hP : P ∨ Ascii c.buf) (hU : P ∨ NoUni c.buf) (hi : FlowInv (P := P) c st v)
    (hf : st.cur.buf.length < fuel) :
    Sat P (flowWord opts c.buf single fuel st)
      (fun r => WordOut (P := P) c single st r.1 r.2) := by
  induction fuel generalizing st v with
  | zero => omega
  | succ fuel ih =>
    rw [flowWord]
    split
    · rename_i hz
      exact ⟨⟨v, hi⟩, Nat.le_refl _, fun h => (by cases h), fun _ => hz, fun _ h => (by simp [hz] at h)⟩
    · rename_i hz
      obtain ⟨b, t, hbuf, hnb, hbl⟩ := isWhiteSpaceZ_false hz
      have hA := hi.reads.ascii hP
      have hU' := hi.reads.noUni hU
      -- going on from a state that has read something
      have next : ∀ (st' : FlowSt) v', FlowInv (P := P) c st' v' →
          st'.cur.buf.length < st.cur.buf.length →
          Sat P (flowWord opts c.buf single fuel st') (fun r => WordOut (P := P) c single st r.1 r.2) := by
        intro st' v' hi' hl
        refine (ih hi' (by omega)).mono ?_
        rintro ⟨done, st''⟩ h
        have := h.le
        exact ⟨h.inv, by simp at this ⊢; omega, h.close, h.stop, fun _ _ => (by simp at this ⊢; omega)⟩
      refine cache_bind ?_
      split
      · rename_i hq
        simp only [Bool.and_eq_true] at hq
        obtain ⟨u, hu⟩ := List.isPrefixOf_iff_prefix.1 hq.2
        refine (hi.noBorrow hP).bind ?_
        rintro st1 ⟨h1, hi1⟩
        refine (adv_run (n := 2) (hi1.reads.ascii hP) (by rw [h1, ← hu]; simp) ?_).bind ?_
        · rw [h1, ← hu]; simp; decide
        rintro c' ⟨hr, hb', -⟩
        refine next _ (v ++ [0x27]) ⟨hi1.reads.trans hr, ?_, ?_, ?_⟩ ?_
        · intro h; rw [h1] at h; cases h
        · intro _; rw [h1]
        · rcases hi.valid with h | h
          · exact .inl h
          · right; rw [validUtf8_append h]; decide +kernel
        · simp only [hb', h1]
          rw [← hu]; simp; omega
      · split
        · rename_i hq
          refine ⟨⟨v, hi⟩, Nat.le_refl _, fun _ => ?_, fun h => (by cases h), fun h => (by cases h)⟩
          simp only [Bool.or_eq_true, Bool.and_eq_true, Bool.not_eq_true'] at hq
          rcases hq with ⟨hs, hq⟩ | ⟨hs, hq⟩
          · obtain ⟨u, hu⟩ := startsWith_iff.1 hq
            exact ⟨u, by simp [hs, hu]⟩
          · obtain ⟨u, hu⟩ := startsWith_iff.1 hq
            exact ⟨u, by simp [hs, hu]⟩
        · split
          · rename_i hq
            simp only [Bool.and_eq_true] at hq
            obtain ⟨u, hu⟩ := startsWith_iff.1 hq.1.2
            refine (hi.noBorrow hP).bind ?_
            rintro st1 ⟨h1, hi1⟩
            refine (adv_one (hi1.reads.ascii hP) (by rw [h1, hu]; simp) (by rw [h1, hu]; rfl)).bind ?_
            rintro c' ⟨hr, hb', -, hl⟩
            refine next _ v ⟨hi1.reads.trans hr, ?_, ?_, hi.valid⟩ ?_
            · intro h; rw [h1] at h; cases h
            · intro _; rw [h1]
            · rw [h1] at hl; simp at hl ⊢; omega
          · split
            · rename_i hq
              simp only [Bool.and_eq_true] at hq
              obtain ⟨u, hu⟩ := startsWith_iff.1 hq.2
              refine (hi.noBorrow hP).bind ?_
              rintro st1 ⟨h1, hi1⟩
              have hcur : st1.cur = st.cur := by rw [h1]
              rw [hcur, hu]
              refine flowUnescape_sat.bind ?_
              rintro ⟨w, n⟩ ⟨hn1, hn2, hn3, hn4⟩
              refine (adv_run (n := n) hA (by rw [hu]; simpa using hn2) (by rw [hu]; exact hn3)).bind ?_
              rintro c' ⟨hr, hb', -⟩
              refine next _ (v ++ w) ⟨hi.reads.trans hr, ?_, ?_, ?_⟩ ?_
              · intro h; rw [h1] at h; cases h
              · intro _; rw [h1]
              · rcases hi.valid with h | h
                · exact .inl h
                · rcases hU' with hU' | hU'
                  · exact .inl hU'
                  · rw [hu] at hU'
                    right; rw [validUtf8_append h]; exact hn4 hU'
              · rw [hu] at hb'
                simp only [hb', hu, List.length_drop]
                simp at hn1 ⊢
                omega
            · refine (hi.push hP hbuf (hbuf ▸ hnb)).bind ?_
              rintro st' ⟨hi', hb', -⟩
              exact next _ _ hi' (by rw [hb', hbuf]; simp)

/-- The whitespace read so far is the end of what was taken. -/
def Blanks (st : FlowSt) (v : Str) : Prop :=
  ∃ pre bl, v = pre ++ bl ∧ bl.length = st.whitespace ∧ (P ∨ validUtf8 pre = true)

theorem flowSpace_sat {opts : SFlags} {c : Cur} {fuel : Nat} {st : FlowSt} {v : Str}
    (hP : P ∨ Ascii c.buf) (hi : FlowInv (P := P) c st v) (hb : Blanks (P := P) st v)
    (hl : st.canBorrow = true → st.lines = 0)
    (hf : st.cur.buf.length < fuel) :
    Sat P (flowSpace opts c.buf fuel st) (fun st' =>
      (∃ v', FlowInv (P := P) c st' v' ∧ Blanks (P := P) st' v') ∧
      (st'.canBorrow = true → st'.lines = 0) ∧
      st'.cur.buf.length ≤ st.cur.buf.length ∧
      (isWhiteSpace st.cur.buf = true → st'.cur.buf.length < st.cur.buf.length) ∧
      isWhiteSpace st'.cur.buf = false) := by
  induction fuel generalizing st v with
  | zero => omega
  | succ fuel ih =>
    rw [flowSpace]
    refine cache_bind ?_
    have next : ∀ (st' : FlowSt) v', FlowInv (P := P) c st' v' → Blanks (P := P) st' v' →
        (st'.canBorrow = true → st'.lines = 0) →
        st'.cur.buf.length < st.cur.buf.length →
        Sat P (flowSpace opts c.buf fuel st') (fun st'' =>
          (∃ v', FlowInv (P := P) c st'' v' ∧ Blanks (P := P) st'' v') ∧
          (st''.canBorrow = true → st''.lines = 0) ∧
          st''.cur.buf.length ≤ st.cur.buf.length ∧
          (isWhiteSpace st.cur.buf = true → st''.cur.buf.length < st.cur.buf.length) ∧
          isWhiteSpace st''.cur.buf = false) := by
      intro st' v' hi' hb' hl' hlen
      refine (ih hi' hb' hl' (by omega)).mono ?_
      rintro st'' ⟨h1, h2, h3, h4, h5⟩
      exact ⟨h1, h2, by omega, fun _ => by omega, h5⟩
    have hA := hi.reads.ascii hP
    split
    · rename_i hbl
      obtain ⟨b, t, hbuf, -⟩ := isBlank_iff.1 hbl
      refine (hi.push hP hbuf (hbuf ▸ isBlank_break hbl)).bind ?_
      rintro st1 ⟨hi1, hb1, -, hw1, hl1, hc1⟩
      refine next _ (v ++ [b]) ?_ ?_ ?_ ?_
      · exact ⟨hi1.reads, hi1.borrow, hi1.copy, hi1.valid⟩
      · obtain ⟨pre, bl, rfl, hlen, hpre⟩ := hb
        exact ⟨pre, bl ++ [b], by simp, by simp [hlen, hw1], hpre⟩
      · intro h; exact hl1.trans (hl (hc1 ▸ h))
      · simp [hb1, hbuf]
    · split
      · rename_i hbr
        refine (hi.noBorrow hP).bind ?_
        rintro st1 ⟨h1, hi1⟩
        have hcur : st1.cur = st.cur := by rw [h1]
        refine (line_one (hi1.reads.ascii hP) (by rw [hcur]; exact hbr)).bind ?_
        rintro c' ⟨hr, -, -, hlen⟩
        have hr : Reads c c' := hi1.reads.trans hr
        have hlen : c'.buf.length < st.cur.buf.length := by rw [hcur] at hlen; omega
        simp only [h1]
        split
        · refine next _ v ⟨hr, fun h => (by cases h), fun _ => rfl, hi.valid⟩ ?_
            (fun h => (by cases h)) hlen
          exact ⟨v, [], by simp, rfl, hi.valid⟩
        · refine next _ v ⟨hr, fun h => (by cases h), fun _ => rfl, hi.valid⟩ ?_
            (fun h => (by cases h)) hlen
          obtain ⟨pre, bl, rfl, hl', hpre⟩ := hb
          exact ⟨pre, bl, rfl, hl', hpre⟩
      · rename_i h1 h2
        refine ⟨⟨v, hi, hb⟩, hl, Nat.le_refl _, ?_, ?_⟩
        · intro h; simp [isWhiteSpace, h1, h2] at h
        · simp [isWhiteSpace, h1, h2]

theorem truncEnd_sat {pre bl : Str} {n : Nat} (h : bl.length = n) :
    Sat P (truncEnd (pre ++ bl) n) (fun s => s = pre) := by
  unfold truncEnd
  subst h
  simp

theorem valid_app {v w : Str} (hv : P ∨ validUtf8 v = true) (hw : validUtf8 w = true) :
    P ∨ validUtf8 (v ++ w) = true := by
  rcases hv with h | h
  · exact .inl h
  · right; rw [validUtf8_append h]; exact hw

theorem flowJoin_sat {c : Cur} {st : FlowSt} {v : Str} (hP : P ∨ Ascii c.buf)
    (hi : FlowInv (P := P) c st v) (hb : Blanks (P := P) st v) :
    Sat P (flowJoin c.buf st) (fun st' => (∃ v', FlowInv (P := P) c st' v') ∧
      st'.cur = st.cur) := by
  unfold flowJoin
  obtain ⟨pre, bl, rfl, hl, hpre⟩ := hb
  split
  · exact ⟨⟨_, hi⟩, rfl⟩
  · refine (hi.noBorrow hP).bind ?_
    rintro st1 ⟨h1, hi1⟩
    have hs1 : st1.scratch = pre ++ bl := by rw [h1]
    rw [hs1]
    refine (truncEnd_sat (by rw [h1]; exact hl)).bind ?_
    rintro s rfl
    refine ⟨⟨_, hi1.reads, ?_, fun _ => rfl, ?_⟩, by rw [h1]⟩
    · intro h; rw [h1] at h; cases h
    · split
      · exact valid_app hpre (by decide +kernel)
      · exact hpre
  · rename_i n _
    refine (hi.noBorrow hP).bind ?_
    rintro st1 ⟨h1, hi1⟩
    have hs1 : st1.scratch = pre ++ bl := by rw [h1]
    rw [hs1]
    refine (truncEnd_sat (by rw [h1]; exact hl)).bind ?_
    rintro s rfl
    refine ⟨⟨_, hi1.reads, ?_, fun _ => rfl, ?_⟩, by rw [h1]⟩
    · intro h; rw [h1] at h; cases h
    · exact valid_app hpre (Ascii.replicate _ (by decide)).validUtf8

theorem flowLoop_sat {opts : SFlags} {single : Bool} {c : Cur} {fuel : Nat} {st : FlowSt} {v : Str}
    (hP : P ∨ Ascii c.buf) (hU : P ∨ NoUni c.buf) (hi : FlowInv (P := P) c st v)
    (hf : st.cur.buf.length < fuel) :
    Sat P (flowLoop opts c.buf single fuel st) (fun st' => (∃ v', FlowInv (P := P) c st' v') ∧
      st'.cur.buf.length ≤ st.cur.buf.length ∧
      ∃ t, st'.cur.buf = (if single then 0x27 else b! '"') :: t) := by
  induction fuel generalizing st v with
  | zero => omega
  | succ fuel ih =>
    rw [flowLoop]
    refine cache_bind ?_
    split
    · simp
    split
    · simp
    rename_i hne
    refine cache_bind ?_
    have hi' : FlowInv (P := P) c { st with escapedBreak := none } v :=
      ⟨hi.reads, hi.borrow, hi.copy, hi.valid⟩
    have hlen := hi.reads.length_le
    refine (flowWord_sat (opts := opts) (single := single) (fuel := c.buf.length + 1) hP hU hi'
      (by simp; omega)).bind ?_
    rintro ⟨done, st1⟩ h
    cases done with
    | true => exact ⟨h.inv, h.le, h.close rfl⟩
    | false =>
      simp only [Bool.false_eq_true, ↓reduceIte]
      obtain ⟨v1, hi1⟩ := h.inv
      have hi1' : FlowInv (P := P) c { st1 with whitespace := 0, lines := 0 } v1 :=
        ⟨hi1.reads, hi1.borrow, hi1.copy, hi1.valid⟩
      have hlen1 := hi1.reads.length_le
      have hle1 := h.le
      simp only at hle1 hlen1
      refine (flowSpace_sat (opts := opts) (fuel := c.buf.length + 1) hP hi1'
        ⟨v1, [], by simp, rfl, hi1.valid⟩ (fun _ => rfl) (by simp; omega)).bind ?_
      rintro st2 ⟨⟨v2, hi2, hb2⟩, -, hle2, hlt2, -⟩
      simp only at hle2 hlt2
      refine (flowJoin_sat hP hi2 hb2).bind ?_
      rintro st3 ⟨⟨v3, hi3⟩, hcur⟩
      have hlt : st3.cur.buf.length < st.cur.buf.length := by
        rw [hcur]
        by_cases hz : isWhiteSpaceZ st.cur.buf = true
        · have hstop := h.stop rfl
          by_cases he : st1.cur.buf = []
          · have : st2.cur.buf.length = 0 := by rw [he] at hle2; simpa using hle2
            have : 0 < st.cur.buf.length := by
              rw [List.length_pos_iff]; simpa using hne
            omega
          · have hw : isWhiteSpace st1.cur.buf = true := by
              simp only [isWhiteSpaceZ, Bool.or_eq_true, List.isEmpty_iff] at hstop
              simp only [isWhiteSpace, Bool.or_eq_true]
              rcases hstop with hstop | hstop
              · exact hstop
              · exact absurd hstop he
            have := hlt2 hw
            omega
        · have := h.lt rfl (by simpa using hz)
          simp only at this
          omega
      refine (ih hi3 (by omega)).mono ?_
      rintro st4 ⟨h1, h2, h3⟩
      exact ⟨h1, by omega, h3⟩

/-- A quoted scalar, read eagerly: it ends behind the closing quote. -/
theorem scanFlowEager_sat {opts : SFlags} {single : Bool} {b : Byte} {t : Str} {m : MStats}
    (hP : P ∨ Ascii (b :: t)) (hU : P ∨ NoUni (b :: t)) (hb : isBreak (b :: t) = false) :
    Sat P (scanFlowEager opts single ⟨b :: t, m⟩) (fun r => Reads ⟨b :: t, m⟩ r.2 ∧
      r.2.buf.length + 1 ≤ t.length ∧
      ∃ s, r.1 = .Scalar s (flowStyle single)) := by
  unfold scanFlowEager
  refine cache_bind ?_
  refine (adv_one hP (by simp) hb).bind ?_
  rintro c1 ⟨h1, hb1, -, -⟩
  have hb1 : c1.buf = t := hb1
  have hi : FlowInv (P := P) ⟨b :: t, m⟩ { cur := c1 } [] :=
    ⟨h1, fun _ => ⟨rfl, b, by simp [hb1]⟩, fun h => (by cases h), .inr (by simp [validUtf8])⟩
  refine (flowLoop_sat (opts := opts) (single := single) (fuel := (b :: t).length + 1) hP hU hi
    (by simp [hb1]; omega)).bind ?_
  rintro st ⟨⟨v, hi2⟩, hle, u, hu⟩
  have hlen := hi2.reads.length_le
  have hA := hi2.reads.ascii hP
  simp only [hb1] at hle
  have hs : Sat P (flowSlice (b :: t) st) (fun _ => True) := by
    unfold flowSlice
    split
    · exact (slice_sat (a := 1) hP (by simp; omega) (by omega)).mono fun _ _ => trivial
    · rename_i h
      unfold fromUtf8Unwrap
      split
      · trivial
      · rename_i hv
        rw [hi2.copy (by simpa using h)] at hv
        rcases hi2.valid with h | h
        · exact h
        · exact absurd h hv
  refine hs.bind fun s _ => ?_
  refine cache_bind ?_
  refine (adv_one hA (by simp [hu]) (by rw [hu]; cases single <;> rfl)).bind ?_
  rintro c2 ⟨h2, -, -, hl2⟩
  exact ⟨hi2.reads.trans h2, by simp only; omega, s, rfl⟩

theorem flowLazyLoop_sat {opts : SFlags} {single : Bool} {fuel : Nat} {c : Cur}
    (hV : validUtf8 c.buf = true) (hf : c.buf.length < fuel) :
    Sat P (flowLazyLoop opts single fuel c) (fun c' => Reads c c' ∧
      c'.buf.length + 1 ≤ c.buf.length ∧ validUtf8 c'.buf = true) := by
  induction fuel generalizing c with
  | zero => omega
  | succ fuel ih =>
    rw [flowLazyLoop]
    refine cache_bind ?_
    split
    · simp
    rename_i hne
    have hne : c.buf ≠ [] := by simpa using hne
    have next : ∀ c', Reads c c' → c'.buf.length + 1 ≤ c.buf.length → validUtf8 c'.buf = true →
        Sat P (flowLazyLoop opts single fuel c') (fun c' => Reads c c' ∧
          c'.buf.length + 1 ≤ c.buf.length ∧ validUtf8 c'.buf = true) := by
      intro c' hr hl hv
      refine (ih hv (by omega)).mono ?_
      rintro c'' ⟨h1, h2, h3⟩
      exact ⟨hr.trans h1, by omega, h3⟩
    -- over a prefix of ASCII bytes without a break
    have run : ∀ p t, c.buf = p ++ t → Ascii p → (∀ b ∈ p, NoBrk b) →
        Sat P (c.adv p.length) (fun c' => Reads c c' ∧ c'.buf = t ∧ validUtf8 c'.buf = true) := by
      intro p t hpt hp hnb
      have ht : validUtf8 t = true := validUtf8_drop_ascii hp (hpt ▸ hV)
      have hbd : isBoundary c.buf p.length = true := by
        rw [hpt]; exact validUtf8_drop_len hp.validUtf8 ht
      unfold Cur.adv
      simp only [hbd, ↓reduceIte, Out.Sat.ok]
      have hd : c.buf.drop p.length = t := by rw [hpt]; simp
      refine ⟨?_, hd, hd ▸ ht⟩
      exact Reads.drop (by rw [hpt]; simp) (by rw [hpt]; simpa using hnb)
    split
    · rename_i hq
      have : ∃ p t, c.buf = p ++ t ∧ p.length = 2 ∧ Ascii p ∧ ∀ b ∈ p, NoBrk b := by
        simp only [Bool.or_eq_true, Bool.and_eq_true] at hq
        rcases hq with ⟨-, hq⟩ | ⟨-, hq⟩
        · obtain ⟨u, hu⟩ := List.isPrefixOf_iff_prefix.1 hq
          exact ⟨_, u, hu.symm, rfl, by unfold Ascii; decide, by decide⟩
        · obtain ⟨u, hu⟩ := List.isPrefixOf_iff_prefix.1 hq
          exact ⟨_, u, hu.symm, rfl, by unfold Ascii; decide, by decide⟩
      obtain ⟨p, t, hpt, hl, hp, hnb⟩ := this
      rw [← hl]
      refine (run p t hpt hp hnb).bind ?_
      rintro c' ⟨hr, hb, hv⟩
      exact next c' hr (by rw [hb, hpt]; simp; omega) hv
    · split
      · rename_i hq
        have : ∃ b t, c.buf = b :: t ∧ b < 128 ∧ NoBrk b := by
          simp only [Bool.or_eq_true, Bool.and_eq_true] at hq
          rcases hq with ⟨-, hq⟩ | ⟨-, hq⟩
          · obtain ⟨u, hu⟩ := startsWith_iff.1 hq
            exact ⟨_, u, hu, by decide, by decide⟩
          · obtain ⟨u, hu⟩ := startsWith_iff.1 hq
            exact ⟨_, u, hu, by decide, by decide⟩
        obtain ⟨b, t, hbt, hb, hnb⟩ := this
        refine (run [b] t hbt (.cons hb .nil) (by simpa using hnb)).mono ?_
        rintro c' ⟨hr, hb, hv⟩
        exact ⟨hr, by rw [hb, hbt]; simp, hv⟩
      · split
        · rename_i hbr
          have hbd : isBoundary c.buf (breakLen c.buf) = true := by
            have hw : ∃ p t, c.buf = p ++ t ∧ p.length = breakLen c.buf ∧ validUtf8 p = true := by
              generalize c.buf = s at hbr
              unfold isBreak at hbr
              split at hbr
              · rename_i r
                cases r with
                | nil => exact ⟨[0x0D], [], rfl, rfl, by decide +kernel⟩
                | cons x r =>
                  by_cases hx : x = 0x0A
                  · subst hx; exact ⟨[0x0D, 0x0A], r, rfl, rfl, by decide +kernel⟩
                  · refine ⟨[0x0D], x :: r, rfl, ?_, by decide +kernel⟩
                    unfold breakLen
                    split <;> simp_all
              · rename_i r; exact ⟨[0x0A], r, rfl, rfl, by decide +kernel⟩
              · rename_i r; exact ⟨[0xC2, 0x85], r, rfl, rfl, by decide +kernel⟩
              · rename_i r; exact ⟨[0xE2, 0x80, 0xA8], r, rfl, rfl, by decide +kernel⟩
              · rename_i r; exact ⟨[0xE2, 0x80, 0xA9], r, rfl, rfl, by decide +kernel⟩
              · cases hbr
            obtain ⟨p, t, hpt, hl, hp⟩ := hw
            rw [← hl, hpt]
            refine validUtf8_drop_len hp ?_
            rw [hpt, validUtf8_append hp] at hV
            exact hV
          have hpos := breakLen_pos.2 hbr
          have hle := breakLen_le c.buf
          unfold Cur.line
          simp only [hbd, ↓reduceIte, Out.ok_bind]
          exact next _ (.break_ hbr) (by simp; omega) (validUtf8_drop hV hbd)
        · rename_i hbr
          refine (adv_char hV hne (by simpa using hbr)).bind ?_
          rintro c' ⟨hr, -, hl, hv⟩
          exact next c' hr hl hv

theorem boundary_of_suffix {a b : Cur} (h : Reads a b) (hV : validUtf8 b.buf = true) :
    isBoundary a.buf (a.buf.length - b.buf.length) = true := by
  obtain ⟨t, ht⟩ := h.suffix
  have hn : a.buf.length - b.buf.length = t.length := by rw [ht]; simp
  rw [hn, ht]
  unfold isBoundary
  cases hb : b.buf with
  | nil => simp
  | cons x y =>
    rw [hb] at hV
    have := validUtf8_head hV
    simp only [List.getElem?_append_right (Nat.le_refl _), Nat.sub_self, List.getElem?_cons_zero,
      Bool.or_eq_true, beq_iff_eq, decide_eq_true_eq]
    exact .inr this

/-- A quoted scalar, put off: no panic for any text. -/
theorem scanFlowLazy_sat {opts : SFlags} {single : Bool} {b : Byte} {t : Str} {m : MStats}
    (hb : b < 128) (hnb : NoBrk b) (hV : validUtf8 (b :: t) = true) :
    Sat P (scanFlowLazy opts single ⟨b :: t, m⟩) (fun r => Reads ⟨b :: t, m⟩ r.2 ∧
      r.2.buf.length + 1 ≤ t.length ∧ validUtf8 r.2.buf = true) := by
  unfold scanFlowLazy
  refine cache_bind ?_
  have hVt : validUtf8 t = true := by rwa [validUtf8_cons hb] at hV
  have hbd : isBoundary (b :: t) 1 = true :=
    validUtf8_drop_len (s := [b]) (Ascii.validUtf8 (.cons hb .nil)) hVt
  unfold Cur.adv
  simp only [hbd, ↓reduceIte, Out.ok_bind, List.drop_succ_cons, List.drop_zero]
  refine (flowLazyLoop_sat (fuel := (b :: t).length + 1) hVt (by simp; omega)).bind ?_
  rintro c2 ⟨hr, hl, hv⟩
  have hr' : Reads ⟨b :: t, m⟩ c2 := .byte hnb.isBreak hr
  have h2 := boundary_of_suffix hr' hv
  have h0 : isBoundary (b :: t) 0 = true := by simp [isBoundary]
  unfold slice
  simp only [Nat.zero_le, decide_true, h0, Bool.true_and, h2, ↓reduceIte, Out.ok_bind, Out.Sat.ok]
  exact ⟨hr', by simpa using hl, hv⟩

end Yary
