import Verif.Proof.Scan.QuotedOk
import Verif.Proof.Scan.Names

/-! # Scanning the beginning of a text

What a scanning function does on the beginning of a text, if it does not ask for more, is what it
does on the whole text. -/

namespace Yary.Chunk

open Out (Sat)

/-- What the functions on the beginning of a text, `x`, and on the text, `y`, have in common: the first
asks for more, or is sure to in what follows (`E`), or both end the same way. -/
def Later {α β : Type} (E : α → Prop) (R : α → β → Prop) (x : Out ScanError α) (y : Out ScanError β) : Prop :=
  match x with
  | .ok a => E a ∨ ∃ b, y = .ok b ∧ R a b
  | .err e => e = .Extend ∨ y = .err e
  | .panic => y = .panic
  | .diverge => True

/-- Nothing is stuck. -/
abbrev No {α : Type} (_ : α) : Prop := False

variable {α β γ δ : Type} {E : α → Prop} {F : γ → Prop} {R : α → β → Prop} {S : γ → δ → Prop}
  {x : Out ScanError α} {y : Out ScanError β}

theorem Later.bind {f : α → Out ScanError γ} {g : β → Out ScanError δ} (h : Later E R x y)
    (hE : ∀ a, E a → f a = .err .Extend ∨ f a = .diverge) (hR : ∀ a b, R a b → Later F S (f a) (g b)) :
    Later F S (x >>= f) (y >>= g) := by
  cases x with
  | ok a =>
    rcases h with h | ⟨b, rfl, h⟩
    · rw [Out.ok_bind]
      rcases hE a h with h | h
      · rw [h]; exact .inl rfl
      · rw [h]; trivial
    · exact hR a b h
  | err e =>
    rcases h with rfl | rfl
    · exact .inl rfl
    · exact .inr rfl
  | panic => cases h; rfl
  | diverge => trivial

theorem Later.bindE {f : α → Out ScanError γ} {g : β → Out ScanError δ} (h : Later E R x y)
    (hE : ∀ a, E a → ∀ y, Later F S (f a) y) (hR : ∀ a b, R a b → Later F S (f a) (g b)) :
    Later F S (x >>= f) (y >>= g) := by
  cases x with
  | ok a =>
    rcases h with h | ⟨b, rfl, h⟩
    · rw [Out.ok_bind]
      exact hE a h _
    · exact hR a b h
  | err e =>
    rcases h with rfl | rfl
    · exact .inl rfl
    · exact .inr rfl
  | panic => cases h; rfl
  | diverge => trivial

theorem Later.bind0 {f : α → Out ScanError γ} {g : β → Out ScanError δ} (h : Later No R x y)
    (hR : ∀ a b, R a b → Later F S (f a) (g b)) : Later F S (x >>= f) (y >>= g) :=
  h.bind (fun _ h => h.elim) hR

theorem Later.mono {E' : α → Prop} {R' : α → β → Prop} (h : Later E R x y) (hE : ∀ a, E a → E' a)
    (hR : ∀ a b, R a b → R' a b) : Later E' R' x y := by
  cases x with
  | ok a =>
    rcases h with h | ⟨b, rfl, h⟩
    · exact .inl (hE a h)
    · exact .inr ⟨b, rfl, hR a b h⟩
  | err e => exact h
  | panic => exact h
  | diverge => trivial

theorem Later.ok {a : α} {b : β} (h : R a b) : Later E R (.ok a) (.ok b) := .inr ⟨b, rfl, h⟩
theorem Later.stuck {a : α} (h : E a) : Later E R (.ok a) y := .inl h
theorem Later.err {e : ScanError} : Later E R (.err e) (.err e) := .inr rfl
theorem Later.extend : Later E R (.err .Extend) y := .inl rfl
theorem Later.panic : Later E R .panic .panic := rfl

/-- The same computation. -/
theorem Later.same {z : Out ScanError α} : Later No (fun a b => a = b) z z := by
  cases z with
  | ok a => exact .ok rfl
  | err e => exact .err
  | panic => exact .panic
  | diverge => trivial

/-- What is known about the result on the beginning. -/
theorem Later.and {Q : α → Prop} (h : Later E R x y) (hs : Sat True x Q) :
    Later (fun a => E a ∧ Q a) (fun a b => R a b ∧ Q a) x y := by
  cases x with
  | ok a =>
    rcases h with h | ⟨b, rfl, h⟩
    · exact .inl ⟨h, hs⟩
    · exact .inr ⟨b, rfl, h, hs⟩
  | err e => exact h
  | panic => exact h
  | diverge => trivial

theorem Later.and' {Q : α → Prop} (h : Later No R x y) (hs : Sat True x Q) :
    Later No (fun a b => R a b ∧ Q a) x y := (h.and hs).mono (fun _ h => h.1) fun _ _ h => h

theorem Later.ite {p p' : Prop} [Decidable p] [Decidable p'] (hp : p' ↔ p) {x1 x2 : Out ScanError α}
    {y1 y2 : Out ScanError β} (h1 : p → Later E R x1 y1) (h2 : ¬ p → Later E R x2 y2) :
    Later E R (if p then x1 else x2) (if p' then y1 else y2) := by
  by_cases h : p
  · rw [if_pos h, if_pos (hp.2 h)]; exact h1 h
  · rw [if_neg h, if_neg (fun h' => h (hp.1 h'))]; exact h2 h

/-- The conditions of the two are the same. -/
theorem Later.iteB {p p' : Bool} (hp : p' = p) {x1 x2 : Out ScanError α} {y1 y2 : Out ScanError β}
    (h1 : p = true → Later E R x1 y1) (h2 : p = false → Later E R x2 y2) :
    Later E R (if p = true then x1 else x2) (if p' = true then y1 else y2) :=
  .ite (by rw [hp]) h1 fun h => h2 (by simpa using h)

/-- There are `n` characters. -/
def Has : Nat → Str → Prop
  | 0, _ => True
  | n + 1, s => widthOf s ≠ 0 ∧ Has n (s.drop (widthOf s))

theorem Has.length : ∀ {n : Nat} {s : Str}, Has n s → n ≤ s.length
  | 0, _, _ => Nat.zero_le _
  | n + 1, s, ⟨h0, h⟩ => by
    have := h.length
    simp only [List.length_drop] at this
    have : s.length ≠ 0 := by
      intro hs
      rw [List.length_eq_zero_iff] at hs
      subst hs
      exact h0 rfl
    omega

theorem Has.ne {n : Nat} {s : Str} (h : Has (n + 1) s) : s ≠ [] := by
  rintro rfl
  exact h.1 rfl

theorem Has.mono : ∀ {m n : Nat} {s : Str}, m ≤ n → Has n s → Has m s
  | 0, _, _, _, _ => trivial
  | m + 1, n + 1, _, h, hs => ⟨hs.1, Has.mono (Nat.le_of_succ_le_succ h) hs.2⟩

theorem Has.tail {n : Nat} {b : Byte} {s : Str} (h : Has (n + 1) (b :: s)) (hb : b < 128) : Has n s := by
  have := h.2
  simpa [widthOf, show b < 0x80 from hb] using this

theorem cache_has {o : SFlags} (hx : o.extendable = true) {n : Nat} {s : Str} :
    (cache o n s = .ok () ∧ Has n s) ∨ cache o n s = .err .Extend := by
  induction n generalizing s with
  | zero => exact .inl ⟨rfl, trivial⟩
  | succ n ih =>
    rw [cache]
    by_cases hw : widthOf s = 0
    · rw [if_pos hw, if_pos hx]; exact .inr rfl
    · rw [if_neg hw]
      exact ih.imp (fun h => ⟨h.1, hw, h.2⟩) id

theorem cache_nil {o : SFlags} (hx : o.extendable = true) (n : Nat) : cache o (n + 1) [] = .err .Extend := by
  rw [cache]; simp [widthOf, hx]

variable {o o' : SFlags} {t : Str}

theorem cache_later (hx : o.extendable = true) (hx' : o'.extendable = false) {n : Nat} {s s' : Str}
    {k : Out ScanError α} {k' : Out ScanError β} (h : Has n s → Later E R k k') :
    Later E R (cache o n s >>= fun _ => k) (cache o' n s' >>= fun _ => k') := by
  rw [cache_whole o' hx']
  rcases cache_has hx (n := n) (s := s) with ⟨h1, h2⟩ | h1
  · rw [h1]; exact h h2
  · rw [h1]; exact .inl rfl

/-! ## The tests -/

theorem isBreak_two (c : Byte) (s : Str) : isBreak (0xC2 :: c :: s) = (c == 0x85) := by
  unfold isBreak; split <;> simp_all

theorem isBreak_three (c d : Byte) (s : Str) :
    isBreak (0xE2 :: c :: d :: s) = (c == 0x80 && (d == 0xA8 || d == 0xA9)) := by
  unfold isBreak; split <;> simp_all

theorem isBreak_grow {s : Str} (hv : validUtf8 s = true) (hn : s ≠ []) : isBreak (s ++ t) = isBreak s := by
  cases s with
  | nil => exact absurd rfl hn
  | cons b s =>
    by_cases hb : NoBrk b
    · rw [List.cons_append, hb.isBreak, hb.isBreak]
    · unfold NoBrk at hb
      by_cases h1 : b = 0x0D
      · subst h1; rfl
      · by_cases h2 : b = 0x0A
        · subst h2; rfl
        · by_cases h3 : b = 0xC2
          · subst h3
            cases s with
            | nil => exact absurd hv (by decide)
            | cons c s => rw [List.cons_append, List.cons_append, isBreak_two, isBreak_two]
          · have h4 : b = 0xE2 := by
              by_cases h4 : b = 0xE2
              · exact h4
              · exact absurd ⟨h1, h2, h3, h4⟩ hb
            subst h4
            match s with
            | [] => exact absurd hv (by decide)
            | [c] => simp [validUtf8] at hv
            | c :: d :: s => rw [List.cons_append, List.cons_append, List.cons_append, isBreak_three, isBreak_three]

theorem startsWith_grow {s : Str} (hn : s ≠ []) (b : Byte) : startsWith (s ++ t) b = startsWith s b := by
  cases s with
  | nil => exact absurd rfl hn
  | cons c s => rfl

theorem isBlank_grow {s : Str} (hn : s ≠ []) : isBlank (s ++ t) = isBlank s := by
  unfold isBlank
  rw [startsWith_grow hn, startsWith_grow hn]

theorem isWhiteSpace_grow {s : Str} (hv : validUtf8 s = true) (hn : s ≠ []) :
    isWhiteSpace (s ++ t) = isWhiteSpace s := by
  unfold isWhiteSpace
  rw [isBlank_grow hn, isBreak_grow hv hn]

theorem isEmpty_grow {s : Str} (hn : s ≠ []) : (s ++ t).isEmpty = s.isEmpty := by
  cases s with
  | nil => exact absurd rfl hn
  | cons c s => rfl

theorem isWhiteSpaceZ_grow {s : Str} (hv : validUtf8 s = true) (hn : s ≠ []) :
    isWhiteSpaceZ (s ++ t) = isWhiteSpaceZ s := by
  unfold isWhiteSpaceZ
  rw [isBlank_grow hn, isBreak_grow hv hn, isEmpty_grow hn]

theorem isBreakZ_grow {s : Str} (hv : validUtf8 s = true) (hn : s ≠ []) :
    isBreakZ (s ++ t) = isBreakZ s := by
  unfold isBreakZ
  rw [isBreak_grow hv hn, isEmpty_grow hn]

theorem flowIndicator_grow {s : Str} (hn : s ≠ []) : flowIndicator (s ++ t) = flowIndicator s := by
  unfold flowIndicator
  simp only [startsWith_grow hn]

theorem valid_tail {b : Byte} {s : Str} (hv : validUtf8 (b :: s) = true) (hb : b < 128) : validUtf8 s = true := by
  rwa [validUtf8_cons hb] at hv

theorem startsMarker_three {s : Str} (h : startsMarker s = true) :
    ∃ a r, (a = 0x2D ∨ a = 0x2E) ∧ s = a :: a :: a :: r := by
  unfold startsMarker at h
  split at h
  · exact ⟨_, _, .inl rfl, rfl⟩
  · exact ⟨_, _, .inr rfl, rfl⟩
  · exact absurd h (by simp)

theorem startsMarker_eq (a b c : Byte) (s : Str) : startsMarker (a :: b :: c :: s) =
    ((a == 0x2D && b == 0x2D && c == 0x2D) || (a == 0x2E && b == 0x2E && c == 0x2E)) := by
  unfold startsMarker
  split
  · simp_all
  · simp_all
  · rename_i h1 h2
    have h1' : a = 0x2D → b = 0x2D → c ≠ 0x2D := fun ha hb hc => h1 s (by rw [ha, hb, hc])
    have h2' : a = 0x2E → b = 0x2E → c ≠ 0x2E := fun ha hb hc => h2 s (by rw [ha, hb, hc])
    simp only [Bool.false_eq, Bool.or_eq_false_iff, Bool.and_eq_false_iff, beq_eq_false_iff_ne, ne_eq]
    constructor
    · by_cases ha : a = 0x2D
      · by_cases hb : b = 0x2D
        · exact .inr (h1' ha hb)
        · exact .inl (.inr hb)
      · exact .inl (.inl ha)
    · by_cases ha : a = 0x2E
      · by_cases hb : b = 0x2E
        · exact .inr (h2' ha hb)
        · exact .inl (.inr hb)
      · exact .inl (.inl ha)

theorem startsMarker_grow {s : Str} (h : 3 ≤ s.length) : startsMarker (s ++ t) = startsMarker s := by
  match s with
  | [] | [_] | [_, _] => simp at h
  | a :: b :: c :: s => rw [List.cons_append, List.cons_append, List.cons_append, startsMarker_eq, startsMarker_eq]

/-- What follows the three bytes of a marker. -/
theorem marker_grow {s : Str} (hv : validUtf8 s = true) (h : Has 4 s) :
    (startsMarker (s ++ t) && isWhiteSpaceZ ((s ++ t).drop 3)) = (startsMarker s && isWhiteSpaceZ (s.drop 3)) := by
  rw [startsMarker_grow (by have := h.length; omega)]
  cases hm : startsMarker s with
  | false => rfl
  | true =>
    obtain ⟨a, r, ha, rfl⟩ := startsMarker_three hm
    have ha' : a < 128 := by rcases ha with rfl | rfl <;> decide
    have h1 := ((h.tail ha').tail ha').tail ha'
    have hv1 := valid_tail (valid_tail (valid_tail hv ha') ha') ha'
    simp only [List.cons_append, List.drop_succ_cons, List.drop_zero, Bool.true_and]
    exact isWhiteSpaceZ_grow hv1 h1.ne

theorem isDocumentIndicator_grow {s : Str} (hv : validUtf8 s = true) (h : Has 4 s) (col : Nat) :
    isDocumentIndicator (s ++ t) col = isDocumentIndicator s col := by
  unfold isDocumentIndicator
  rw [Bool.and_assoc, Bool.and_assoc, marker_grow hv h]

/-- A test of the byte after an ASCII byte. -/
theorem second_grow {s : Str} {b : Byte} (hb : b < 128) {f : Str → Bool}
    (hf : ∀ r, validUtf8 r = true → r ≠ [] → f (r ++ t) = f r) (hv : validUtf8 s = true) (h : Has 2 s) :
    (startsWith (s ++ t) b && f ((s ++ t).drop 1)) = (startsWith s b && f (s.drop 1)) := by
  rw [startsWith_grow h.ne]
  cases hs : startsWith s b with
  | false => rfl
  | true =>
    obtain ⟨r, rfl⟩ := startsWith_iff.1 hs
    simp only [List.cons_append, List.drop_succ_cons, List.drop_zero, Bool.true_and]
    exact hf r (valid_tail hv hb) (h.tail hb).ne

theorem plainEnd_grow {s : Str} (hv : validUtf8 s = true) (h : Has 2 s) (block : Bool) :
    plainEnd block (s ++ t) = plainEnd block s := by
  unfold plainEnd
  rw [second_grow (by decide) (fun _ => isWhiteSpaceZ_grow) hv h, flowIndicator_grow h.ne]

/-! ## Boundaries -/

variable (ht : HeadOk t)
include ht

theorem boundary_grow {s : Str} {n : Nat} (hn : n ≤ s.length) : isBoundary (s ++ t) n = isBoundary s n := by
  unfold isBoundary
  rcases Nat.lt_or_ge n s.length with h | h
  · rw [List.getElem?_append_left h]
    rw [List.getElem?_eq_getElem h]
  · have hl : n = s.length := by omega
    subst hl
    rw [List.getElem?_append_right (Nat.le_refl _), Nat.sub_self]
    have h1 : s[s.length]? = none := by simp
    rw [h1]
    cases t with
    | nil => simp
    | cons b r =>
      have := ht b r rfl
      simp [this]

theorem slice_grow {s : Str} {a b : Nat} (hb : b ≤ s.length) :
    (slice (s ++ t) a b : Out ScanError Str) = slice s a b := by
  unfold slice
  by_cases h : a ≤ b
  · rw [boundary_grow ht hb, boundary_grow ht (by omega)]
    rw [List.drop_append_of_le_length (by omega), List.take_append_of_le_length (by simp; omega)]
  · simp [h]

/-! ## Moving the cursor -/

omit ht in
theorem drop_grow {s : Str} {n : Nat} (h : n ≤ s.length) : (s ++ t).drop n = s.drop n ++ t :=
  List.drop_append_of_le_length h

/-- The cursor on the text, for one on the beginning. -/
structure Grown (t : Str) (c c' : Cur) : Prop where
  eq : c' = ⟨c.buf ++ t, c.stats⟩
  valid : validUtf8 c.buf = true

theorem adv_later {c : Cur} {n : Nat} (hv : validUtf8 c.buf = true) (hn : n ≤ c.buf.length) :
    Later No (fun a b => Grown t a b ∧ a = ⟨c.buf.drop n, c.stats.update n 0 n⟩) (c.adv n)
      (Cur.adv ⟨c.buf ++ t, c.stats⟩ n) := by
  unfold Cur.adv
  simp only
  rw [boundary_grow ht hn]
  by_cases hb : isBoundary c.buf n = true
  · rw [if_pos hb, if_pos hb]
    exact .ok ⟨⟨by rw [drop_grow hn], validUtf8_drop hv hb⟩, rfl⟩
  · rw [if_neg hb, if_neg hb]; exact .panic

theorem skip_later {c : Cur} {n : Nat} (hv : validUtf8 c.buf = true) (hn : n ≤ c.buf.length) :
    Later No (fun a b => Grown t a b ∧ a = ⟨c.buf.drop n, c.stats⟩) (c.skip n)
      (Cur.skip ⟨c.buf ++ t, c.stats⟩ n) := by
  unfold Cur.skip
  simp only
  rw [boundary_grow ht hn]
  by_cases hb : isBoundary c.buf n = true
  · rw [if_pos hb, if_pos hb]
    exact .ok ⟨⟨by rw [drop_grow hn], validUtf8_drop hv hb⟩, rfl⟩
  · rw [if_neg hb, if_neg hb]; exact .panic

omit ht in
theorem breakLen_grow {s : Str} (hv : validUtf8 s = true) (hn : s ≠ []) (hc : s ≠ [0x0D]) :
    breakLen (s ++ t) = breakLen s := by
  by_cases hb : isBreak s = true
  · unfold isBreak at hb
    split at hb
    · rename_i r
      cases r with
      | nil => exact absurd rfl hc
      | cons a r =>
        by_cases ha : a = 0x0A
        · subst ha; rfl
        · simp [breakLen, ha]
    · rfl
    · rfl
    · rfl
    · rfl
    · cases hb
  · have hb : isBreak s = false := by simpa using hb
    rw [breakLen_zero hb, breakLen_zero (by rw [isBreak_grow hv hn]; exact hb)]

/-- The end of a line; a carriage return at the end may be followed by a line feed. -/
theorem line_later {c : Cur} (hv : validUtf8 c.buf = true) (hn : c.buf ≠ []) :
    Later (fun a => a.buf = []) (fun a b => Grown t a b ∧ a = ⟨c.buf.drop (breakLen c.buf), c.stats.update (breakLen c.buf) 1 0⟩)
      c.line (Cur.line ⟨c.buf ++ t, c.stats⟩) := by
  by_cases hc : c.buf = [0x0D]
  · unfold Cur.line
    rw [hc]
    exact .stuck rfl
  · unfold Cur.line
    simp only
    rw [breakLen_grow hv hn hc, boundary_grow ht (breakLen_le _)]
    by_cases hb : isBoundary c.buf (breakLen c.buf) = true
    · rw [if_pos hb, if_pos hb]
      exact .ok ⟨⟨by rw [drop_grow (breakLen_le _)], validUtf8_drop hv hb⟩, rfl⟩
    · rw [if_neg hb, if_neg hb]; exact .panic

end Yary.Chunk
