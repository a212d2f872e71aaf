import Verif.Spec.Text
import Verif.Proof.Scan.Arith

/-! # Reasoning about the scanning functions

`Out.Sat P x Q`: `x` terminates, panics only if `P` allows it, and a value it returns satisfies
`Q`. `Reads c c'`: the cursor moved from `c` to `c'` reading one character or line break after the
other, counting each. -/

namespace Yary

/-- Every byte is an ASCII byte. -/
def Ascii (s : Str) : Prop := ∀ b ∈ s, b < 128

theorem Ascii.drop {s : Str} (h : Ascii s) (n : Nat) : Ascii (s.drop n) :=
  fun b hb => h b (List.mem_of_mem_drop hb)

theorem Ascii.take {s : Str} (h : Ascii s) (n : Nat) : Ascii (s.take n) :=
  fun b hb => h b (List.mem_of_mem_take hb)

theorem Ascii.tail {b : Byte} {s : Str} (h : Ascii (b :: s)) : Ascii s :=
  fun x hx => h x (by simp [hx])

theorem Ascii.append {s t : Str} (hs : Ascii s) (ht : Ascii t) : Ascii (s ++ t) := by
  intro b hb
  rcases List.mem_append.1 hb with h | h
  · exact hs b h
  · exact ht b h

theorem Ascii.nil : Ascii [] := fun _ h => absurd h (by simp)

theorem Ascii.cons {b : Byte} {s : Str} (h : b < 128) (hs : Ascii s) : Ascii (b :: s) := by
  intro x hx
  rcases List.mem_cons.1 hx with rfl | hx
  · exact h
  · exact hs x hx

theorem Ascii.right {s t : Str} (h : Ascii (s ++ t)) : Ascii t := fun b hb => h b (by simp [hb])
theorem Ascii.left {s t : Str} (h : Ascii (s ++ t)) : Ascii s := fun b hb => h b (by simp [hb])

theorem Ascii.replicate (n : Nat) {b : Byte} (h : b < 128) : Ascii (List.replicate n b) := by
  intro x hx
  rw [(List.mem_replicate.1 hx).2]; exact h

theorem Ascii.boundary {s : Str} (h : Ascii s) {n : Nat} (hn : n ≤ s.length) :
    isBoundary s n = true := by
  unfold isBoundary
  cases hs : s[n]? with
  | none => have := List.getElem?_eq_none_iff.1 hs; simp; omega
  | some b =>
    have := h b (List.mem_of_getElem? hs)
    simp [this]

theorem Ascii.validUtf8 : ∀ {s : Str}, Ascii s → validUtf8 s = true
  | [], _ => by simp [Yary.validUtf8]
  | b :: t, h => by
    have hb : b < 128 := h b (by simp)
    rw [Yary.validUtf8.eq_def]
    simp [hb, Ascii.validUtf8 h.tail]

theorem boundary_le {s : Str} {n : Nat} (h : isBoundary s n = true) : n ≤ s.length := by
  unfold isBoundary at h
  cases hs : s[n]? with
  | none => simp [hs] at h; omega
  | some b =>
    obtain ⟨hn, -⟩ := List.getElem?_eq_some_iff.1 hs
    omega

/-- Terminates, panics only if `P`, and a returned value satisfies `Q`. -/
def Out.Sat {ε α : Type} (P : Prop) (x : Out ε α) (Q : α → Prop) : Prop :=
  match x with
  | .ok a => Q a
  | .err _ => True
  | .panic => P
  | .diverge => False

namespace Out.Sat
variable {ε α β : Type} {P : Prop}

@[simp] theorem ok {a : α} {Q : α → Prop} : Sat (ε := ε) P (.ok a) Q ↔ Q a := Iff.rfl
@[simp] theorem err {e : ε} {Q : α → Prop} : Sat P (.err e) Q ↔ True := Iff.rfl
@[simp] theorem panic {Q : α → Prop} : Sat (ε := ε) P .panic Q ↔ P := Iff.rfl
@[simp] theorem diverge {Q : α → Prop} : Sat (ε := ε) P .diverge Q ↔ False := Iff.rfl

theorem bind_iff {x : Out ε α} {f : α → Out ε β} {Q : β → Prop} :
    Sat P (x >>= f) Q ↔ Sat P x (fun a => Sat P (f a) Q) := by cases x <;> rfl

theorem mono {x : Out ε α} {Q R : α → Prop} (h : Sat P x Q) (hi : ∀ a, Q a → R a) : Sat P x R := by
  cases x <;> simp_all

/-- Rule for `do`: reason about the first step, then about the rest. -/
theorem bind {x : Out ε α} {f : α → Out ε β} {Q : α → Prop} {R : β → Prop} (h : Sat P x Q)
    (hi : ∀ a, Q a → Sat P (f a) R) : Sat P (x >>= f) R := bind_iff.2 (h.mono hi)

theorem and {x : Out ε α} {Q R : α → Prop} (h : Sat P x Q) (h' : Sat P x R) :
    Sat P x (fun a => Q a ∧ R a) := by cases x <;> simp_all

theorem of_ok {x : Out ε α} {Q : α → Prop} {a : α} (h : Sat P x Q) (hx : x = .ok a) : Q a := by
  subst hx; exact h

theorem not_diverge {x : Out ε α} {Q : α → Prop} (h : Sat P x Q) : x ≠ .diverge := by
  rintro rfl; exact h

theorem not_panic {x : Out ε α} {Q : α → Prop} (h : Sat False x Q) : x ≠ .panic := by
  rintro rfl; exact h

end Out.Sat

open Out (Sat)

/-- `omega` for facts about bytes. -/
macro "byte_omega" : tactic => `(tactic| (unfold Byte at *; omega))

variable {P : Prop}

theorem cache_sat (opts : SFlags) (n : Nat) (s : Str) : Sat P (cache opts n s) (fun _ => True) := by
  induction n generalizing s with
  | zero => simp [cache]
  | succ n ih =>
    rw [cache]
    split
    · split <;> simp
    · exact ih _

@[simp] theorem cache_whole (opts : SFlags) (h : opts.extendable = false) (n : Nat) (s : Str) :
    cache opts n s = .ok () := by
  induction n generalizing s with
  | zero => rfl
  | succ n ih => rw [cache]; simp [h, ih]

/-- `cache` only ever fails by asking for more input. -/
theorem cache_err {opts : SFlags} {n : Nat} {s : Str} {e : ScanError} (h : cache opts n s = .err e) :
    e = .Extend ∧ opts.extendable = true := by
  induction n generalizing s with
  | zero => simp [cache] at h
  | succ n ih =>
    rw [cache] at h
    split at h
    · split at h <;> simp_all
    · exact ih h

/-- `do cache …; k` -/
theorem cache_bind {α : Type} {opts : SFlags} {n : Nat} {s : Str} {k : Out ScanError α} {Q : α → Prop}
    (h : Sat P k Q) : Sat P (cache opts n s >>= fun _ => k) Q :=
  (cache_sat opts n s).bind fun _ _ => h

theorem adv_sat {c : Cur} {n : Nat} (hP : P ∨ Ascii c.buf) (hn : n ≤ c.buf.length) :
    Sat P (c.adv n) (fun c' => c' = ⟨c.buf.drop n, c.stats.update n 0 n⟩) := by
  unfold Cur.adv
  split
  · simp
  · rename_i h
    rcases hP with hP | hP
    · exact hP
    · exact absurd (hP.boundary hn) h

theorem skip_sat {c : Cur} {n : Nat} (hP : P ∨ Ascii c.buf) (hn : n ≤ c.buf.length) :
    Sat P (c.skip n) (fun c' => c' = ⟨c.buf.drop n, c.stats⟩) := by
  unfold Cur.skip
  split
  · simp
  · rename_i h
    rcases hP with hP | hP
    · exact hP
    · exact absurd (hP.boundary hn) h

theorem breakLen_le (s : Str) : breakLen s ≤ s.length := by
  unfold breakLen; split <;> simp

theorem breakLen_pos {s : Str} : 0 < breakLen s ↔ isBreak s = true := by
  unfold breakLen isBreak
  split <;> split <;> simp_all

theorem breakLen_zero {s : Str} (h : isBreak s = false) : breakLen s = 0 := by
  rcases Nat.eq_zero_or_pos (breakLen s) with h0 | h0
  · exact h0
  · simp [breakLen_pos.1 h0] at h

theorem isBreak_nil : isBreak [] = false := rfl

theorem line_sat {c : Cur} (hP : P ∨ Ascii c.buf) :
    Sat P c.line (fun c' => c' = ⟨c.buf.drop (breakLen c.buf),
      c.stats.update (breakLen c.buf) 1 0⟩) := by
  unfold Cur.line
  split
  · simp
  · rename_i h
    rcases hP with hP | hP
    · exact hP
    · exact absurd (hP.boundary (breakLen_le _)) h

/-- The cursor moved from the first to the second, one character or line break at a time, each
counted as such. -/
inductive Reads : Cur → Cur → Prop where
  | refl (c : Cur) : Reads c c
  | byte {b : Byte} {t : Str} {m : MStats} {c' : Cur} : isBreak (b :: t) = false →
      Reads ⟨t, m.update 1 0 1⟩ c' → Reads ⟨b :: t, m⟩ c'
  | line {c c' : Cur} : isBreak c.buf = true →
      Reads ⟨c.buf.drop (breakLen c.buf), c.stats.update (breakLen c.buf) 1 0⟩ c' → Reads c c'

namespace Reads

theorem trans {a b c : Cur} (h : Reads a b) (h' : Reads b c) : Reads a c := by
  induction h with
  | refl => exact h'
  | byte hb _ ih => exact .byte hb (ih h')
  | line hb _ ih => exact .line hb (ih h')

theorem suffix {a b : Cur} (h : Reads a b) : ∃ t, a.buf = t ++ b.buf := by
  induction h with
  | refl => exact ⟨[], rfl⟩
  | @byte b t m c' _ _ ih => obtain ⟨w, hw⟩ := ih; exact ⟨b :: w, by simp_all⟩
  | @line c c' _ _ ih =>
    obtain ⟨w, hw⟩ := ih
    exact ⟨c.buf.take (breakLen c.buf) ++ w, by rw [List.append_assoc, ← hw]; simp⟩

theorem length_le {a b : Cur} (h : Reads a b) : b.buf.length ≤ a.buf.length := by
  obtain ⟨t, ht⟩ := h.suffix
  simp [ht]

theorem ascii {a b : Cur} (h : Reads a b) (ha : P ∨ Ascii a.buf) : P ∨ Ascii b.buf := by
  obtain ⟨t, ht⟩ := h.suffix
  rcases ha with ha | ha
  · exact .inl ha
  · rw [ht] at ha; exact .inr ha.right

/-- The byte count is exact. -/
theorem read {a b : Cur} (h : Reads a b) :
    a.stats.read + a.buf.length = b.stats.read + b.buf.length := by
  induction h with
  | refl => rfl
  | byte _ _ ih => simp [MStats.update] at ih ⊢; omega
  | @line c c' _ _ ih =>
    have := breakLen_le c.buf
    simp [MStats.update] at ih ⊢; omega

theorem read_le {a b : Cur} (h : Reads a b) : a.stats.read ≤ b.stats.read := by
  have := h.read; have := h.length_le; omega

theorem lines_le {a b : Cur} (h : Reads a b) : a.stats.lines ≤ b.stats.lines := by
  induction h with
  | refl => exact Nat.le_refl _
  | byte _ _ ih => simp [MStats.update] at ih ⊢; omega
  | line _ _ ih => simp [MStats.update] at ih ⊢; omega

theorem one {b : Byte} {t : Str} {m : MStats} (h : isBreak (b :: t) = false) :
    Reads ⟨b :: t, m⟩ ⟨t, m.update 1 0 1⟩ := .byte h (.refl _)

theorem break_ {c : Cur} (h : isBreak c.buf = true) :
    Reads c ⟨c.buf.drop (breakLen c.buf), c.stats.update (breakLen c.buf) 1 0⟩ := .line h (.refl _)

end Reads

theorem MStats.update_zero (m : MStats) : m.update 0 0 0 = m := by
  simp [MStats.update]

theorem MStats.update_add (m : MStats) (a b : Nat) :
    (m.update a 0 a).update b 0 b = m.update (a + b) 0 (a + b) := by
  simp [MStats.update]; omega

theorem isBreak_ascii {b : Byte} {t : Str} (h1 : b ≠ 0x0D) (h2 : b ≠ 0x0A) (h3 : b ≠ 0xC2)
    (h4 : b ≠ 0xE2) : isBreak (b :: t) = false := by
  unfold isBreak; split <;> simp_all

/-- A byte that can begin no line break. -/
def NoBrk (b : Byte) : Prop := b ≠ 0x0D ∧ b ≠ 0x0A ∧ b ≠ 0xC2 ∧ b ≠ 0xE2

instance (b : Byte) : Decidable (NoBrk b) := inferInstanceAs (Decidable (_ ∧ _))

theorem NoBrk.isBreak {b : Byte} {t : Str} (h : NoBrk b) : isBreak (b :: t) = false :=
  isBreak_ascii h.1 h.2.1 h.2.2.1 h.2.2.2

/-- Reading a run of bytes of which none can begin a line break. -/
theorem Reads.run {p t : Str} {m : MStats} (h : ∀ b ∈ p, NoBrk b) :
    Reads ⟨p ++ t, m⟩ ⟨t, m.update p.length 0 p.length⟩ := by
  induction p generalizing m with
  | nil => simpa [MStats.update_zero] using Reads.refl _
  | cons b p ih =>
    refine .byte (h b (by simp)).isBreak ?_
    have := ih (m := m.update 1 0 1) (fun x hx => h x (by simp [hx]))
    rwa [MStats.update_add, Nat.add_comm 1] at this

theorem Reads.drop {c : Cur} {n : Nat} (hn : n ≤ c.buf.length) (h : ∀ b ∈ c.buf.take n, NoBrk b) :
    Reads c ⟨c.buf.drop n, c.stats.update n 0 n⟩ := by
  have := Reads.run (t := c.buf.drop n) (m := c.stats) h
  rw [List.take_append_drop, List.length_take, Nat.min_eq_left hn] at this
  exact this

theorem startsWith_iff {s : Str} {b : Byte} : startsWith s b = true ↔ ∃ t, s = b :: t := by
  cases s <;> simp [startsWith]

theorem startsWith_cons {b x : Byte} {t : Str} : startsWith (b :: t) x = (b == x) := by
  simp [startsWith]

theorem isBlank_iff {s : Str} : isBlank s = true ↔ ∃ b t, s = b :: t ∧ (b = 0x20 ∨ b = 0x09) := by
  cases s <;> simp [isBlank, startsWith]

theorem isBlank_break {s : Str} (h : isBlank s = true) : isBreak s = false := by
  obtain ⟨b, t, rfl, rfl | rfl⟩ := isBlank_iff.1 h <;> rfl

/-- One step over a character that does not start a line break. -/
theorem adv_one {c : Cur} (hP : P ∨ Ascii c.buf) (hne : c.buf ≠ []) (hb : isBreak c.buf = false) :
    Sat P (c.adv 1) (fun c' => Reads c c' ∧ c'.buf = c.buf.drop 1 ∧
      c'.stats = c.stats.update 1 0 1 ∧ c'.buf.length + 1 = c.buf.length) := by
  obtain ⟨buf, m⟩ := c
  cases buf with
  | nil => simp at hne
  | cons b t =>
    refine (adv_sat hP (by simp)).mono ?_
    rintro c' rfl
    exact ⟨.one hb, rfl, rfl, by simp⟩

/-- One step over a line break. -/
theorem line_one {c : Cur} (hP : P ∨ Ascii c.buf) (hb : isBreak c.buf = true) :
    Sat P c.line (fun c' => Reads c c' ∧ c'.buf = c.buf.drop (breakLen c.buf) ∧
      c'.stats = c.stats.update (breakLen c.buf) 1 0 ∧ c'.buf.length + 1 ≤ c.buf.length) := by
  refine (line_sat hP).mono ?_
  rintro c' rfl
  have := breakLen_pos.2 hb
  have := breakLen_le c.buf
  exact ⟨.break_ hb, rfl, rfl, by simp; omega⟩

theorem eatWsLoop_sat {opts : SFlags} {comments : Bool} {fuel : Nat} {chomp : Bool} {c : Cur}
    (hP : P ∨ Ascii c.buf) (hf : c.buf.length < fuel) :
    Sat P (eatWsLoop opts comments fuel chomp c) (fun c' => Reads c c') := by
  induction fuel generalizing chomp c with
  | zero => omega
  | succ fuel ih =>
    rw [eatWsLoop]
    refine cache_bind ?_
    have step : ∀ chomp c', Reads c c' → c'.buf.length + 1 ≤ c.buf.length →
        Sat P (eatWsLoop opts comments fuel chomp c') (fun c' => Reads c c') := by
      intro chomp c' hr hl
      refine (ih (hr.ascii hP) (by omega)).mono ?_
      intro c'' h; exact hr.trans h
    split
    · rename_i hb
      refine (adv_one hP ?_ (isBlank_break hb)).bind ?_
      · intro h; simp [h, isBlank, startsWith] at hb
      · rintro c' ⟨hr, -, -, hl⟩
        exact step _ _ hr (by omega)
    · split
      · rename_i hb
        refine (line_one hP hb).bind ?_
        rintro c' ⟨hr, -, -, hl⟩
        exact step _ _ hr hl
      · rename_i hb
        have go : c.buf ≠ [] → ∀ chomp, Sat P (do
            let c ← c.adv 1
            eatWsLoop opts comments fuel chomp c) (fun c' => Reads c c') := by
          intro hne chomp
          refine (adv_one hP hne (by simpa using hb)).bind ?_
          rintro c' ⟨hr, -, -, hl⟩
          exact step _ _ hr (by omega)
        split
        · rename_i hc
          exact go (by intro h; simp [h, startsWith] at hc) _
        · split
          · rename_i hc
            exact go (by intro h; simp [h] at hc) _
          · simp [Reads.refl]

theorem eatWs_sat {opts : SFlags} {comments : Bool} {c : Cur} (hP : P ∨ Ascii c.buf) :
    Sat P (eatWs opts comments c) (fun c' => Reads c c') :=
  eatWsLoop_sat hP (by omega)

/-- The weaker sense in which every scanning function moves the cursor: it drops a prefix of the
buffer, and counts at most the bytes of it. -/
structure Moves (c c' : Cur) : Prop where
  suffix : ∃ t, c.buf = t ++ c'.buf
  read_le : c.stats.read ≤ c'.stats.read
  lines_le : c.stats.lines ≤ c'.stats.lines
  read_ge : c'.stats.read + c'.buf.length ≤ c.stats.read + c.buf.length

namespace Moves

theorem refl (c : Cur) : Moves c c := ⟨⟨[], rfl⟩, Nat.le_refl _, Nat.le_refl _, Nat.le_refl _⟩

theorem trans {a b c : Cur} (h : Moves a b) (h' : Moves b c) : Moves a c := by
  obtain ⟨⟨t, ht⟩, h1, h2, h3⟩ := h
  obtain ⟨⟨u, hu⟩, h4, h5, h6⟩ := h'
  exact ⟨⟨t ++ u, by rw [ht, hu, List.append_assoc]⟩, by omega, by omega, by omega⟩

theorem length_le {a b : Cur} (h : Moves a b) : b.buf.length ≤ a.buf.length := by
  obtain ⟨t, ht⟩ := h.suffix
  simp [ht]

theorem ascii {a b : Cur} (h : Moves a b) (ha : P ∨ Ascii a.buf) : P ∨ Ascii b.buf := by
  obtain ⟨t, ht⟩ := h.suffix
  rcases ha with ha | ha
  · exact .inl ha
  · rw [ht] at ha; exact .inr ha.right

/-- Skipping bytes without counting them. -/
theorem skip (c : Cur) (n : Nat) : Moves c ⟨c.buf.drop n, c.stats⟩ :=
  ⟨⟨c.buf.take n, by simp⟩, Nat.le_refl _, Nat.le_refl _, by simp⟩

end Moves

theorem Reads.moves {a b : Cur} (h : Reads a b) : Moves a b :=
  ⟨h.suffix, h.read_le, h.lines_le, by have := h.read; omega⟩

/-- Every `\uXXXX` and `\UXXXXXXXX` denotes a Unicode scalar value. -/
abbrev NoUni := Spec.CodesOk

/-- Every `%XX` denotes an ASCII character. -/
abbrev NoPct := Spec.PercentsOk

theorem Spec.CodesOk.right {s t : Str} (h : Spec.CodesOk (s ++ t)) : Spec.CodesOk t := by
  intro p d u v hs hv
  refine h (s ++ p) d u v ?_ hv
  rcases hs with ⟨rfl, hd⟩ | ⟨rfl, hd⟩
  · exact .inl ⟨by simp, hd⟩
  · exact .inr ⟨by simp, hd⟩

theorem Spec.PercentsOk.right {s t : Str} (h : Spec.PercentsOk (s ++ t)) : Spec.PercentsOk t := by
  intro p a b u v hs hv
  exact h (s ++ p) a b u v (by simp [hs]) hv

theorem Moves.noUni {a b : Cur} (h : Moves a b) (ha : P ∨ NoUni a.buf) : P ∨ NoUni b.buf := by
  obtain ⟨t, ht⟩ := h.suffix
  rcases ha with ha | ha
  · exact .inl ha
  · rw [ht] at ha; exact .inr ha.right

theorem Moves.noPct {a b : Cur} (h : Moves a b) (ha : P ∨ NoPct a.buf) : P ∨ NoPct b.buf := by
  obtain ⟨t, ht⟩ := h.suffix
  rcases ha with ha | ha
  · exact .inl ha
  · rw [ht] at ha; exact .inr ha.right

theorem Reads.noUni {a b : Cur} (h : Reads a b) (ha : P ∨ NoUni a.buf) : P ∨ NoUni b.buf :=
  h.moves.noUni ha

theorem Reads.noPct {a b : Cur} (h : Reads a b) (ha : P ∨ NoPct a.buf) : P ∨ NoPct b.buf :=
  h.moves.noPct ha

theorem hexDigit_eq (b : Byte) :
    Spec.hexDigit b = if isHexDigit b then some (asHex b) else none := by
  unfold Spec.hexDigit isHexDigit asHex
  simp only [Bool.or_eq_true, Bool.and_eq_true, decide_eq_true_eq]
  repeat' split
  all_goals first | rfl | (exfalso; byte_omega)

end Yary
