import Verif.Spec.Wide
import Verif.Proof.Scan.Narrow
import Verif.Proof.Scan.Inj
import Verif.Props.Keys

/-! # Characters of several bytes stop eager scanning -/

namespace Yary

open Spec

variable {opts : SFlags} {text : List Char} {ops : List ROp}

/-- What was read are whole characters. -/
theorem thin_chars {s r : Str} (h : Thin s r) : ∀ doc : List Char, s = utf8 doc →
    ∃ p q, doc = p ++ q ∧ r = utf8 q ∧ ∀ c ∈ p, Narrow c := by
  have key : ∀ (c : Char) (t : Str) (doc : List Char), Narrow c → utf8Char c ++ t = utf8 doc →
      validUtf8 t = true → ∃ q, doc = c :: q ∧ t = utf8 q := by
    intro c t doc _ he hv
    obtain ⟨q, hq⟩ := (validUtf8_iff _).1 hv
    refine ⟨q, ?_, hq⟩
    apply utf8_inj
    rw [← he, hq]
    simp [utf8]
  have go : ∀ {b c t r} (doc : List Char), Narrow c → b = utf8Char c → validUtf8 (b ++ t) = true →
      validUtf8 t = true → (∀ doc, t = utf8 doc → ∃ p q, doc = p ++ q ∧ r = utf8 q ∧ ∀ c ∈ p, Narrow c) →
      b ++ t = utf8 doc → ∃ p q, doc = p ++ q ∧ r = utf8 q ∧ ∀ c ∈ p, Narrow c := by
    intro b c t r doc hc hb _ hv ih he
    rw [hb] at he
    obtain ⟨q, rfl, hq⟩ := key c t doc hc he hv
    obtain ⟨p, q', rfl, hr, hp⟩ := ih q hq
    exact ⟨c :: p, q', rfl, hr, by simpa using ⟨hc, hp⟩⟩
  induction h with
  | refl s => intro doc h; exact ⟨[], doc, rfl, h, by simp⟩
  | @byte b t r hb h ih =>
    intro doc he
    have hv : validUtf8 (b :: t) = true := (validUtf8_iff _).2 ⟨doc, he⟩
    obtain ⟨c, hc⟩ := exists_char (v := b) (.inl (by byte_omega))
    exact go (b := [b]) (c := c) doc (.inl (by unfold Char.toNat; rw [hc]; exact hb))
      (by rw [utf8Char_eq, hc, if_pos (by byte_omega)]) hv
      ((Thin.byte hb (.refl t)).valid hv) ih he
  | @nel t r h ih =>
    intro doc he
    have hv : validUtf8 (0xC2 :: 0x85 :: t) = true := (validUtf8_iff _).2 ⟨doc, he⟩
    exact go (b := [0xC2, 0x85]) (c := '\u0085') doc (by decide) (by decide) hv
      ((Thin.nel (.refl t)).valid hv) ih he
  | @sep b t r hb h ih =>
    intro doc he
    have hv : validUtf8 (0xE2 :: 0x80 :: b :: t) = true := (validUtf8_iff _).2 ⟨doc, he⟩
    rcases hb with rfl | rfl
    · exact go (b := [0xE2, 0x80, 0xA8]) (c := '\u2028') doc (by decide) (by decide) hv
        ((Thin.sep (.inl rfl) (.refl t)).valid hv) ih he
    · exact go (b := [0xE2, 0x80, 0xA9]) (c := '\u2029') doc (by decide) (by decide) hv
        ((Thin.sep (.inr rfl) (.refl t)).valid hv) ih he

/-- The scanner is done only at the end of the text. -/
theorem reach_done {errs : Bool} {base : Str} (hv : validUtf8 base = true) {s : SS} (h : Reach errs opts base s) :
    s.sc.state = .Done → s.buf = [] := by
  have live : ∀ {s s' : SS} {r}, Reach errs opts base s → s.sc.state ≠ .Done →
      Scan.scanNextToken opts s = (r, s') → r ≠ .panic → r ≠ .diverge →
      (∃ u, r = .ok u ∧ s'.buf = []) ∨ s'.sc.state ≠ .Done := by
    intro s s' r h hd hs hp hg
    have hT : Rest s.buf s.sc.offset s := ⟨(reach_before hv h).valid, ⟨[], rfl⟩, rfl, hd⟩
    have hstep := (closed_rest s.buf s.sc.offset).scanNextToken (P := True) (opts := opts) (.inl trivial) hT hd
    unfold Holds at hstep
    rw [hs] at hstep
    cases r with
    | ok u =>
      rcases hstep with ⟨h1, -⟩ | ⟨-, hf⟩
      · exact .inr h1.2.2.2
      · cases hf with
        | intro _ _ hb => exact .inl ⟨u, rfl, hb⟩
    | err e => exact .inr hstep.2.2.2
    | panic => exact absurd rfl hp
    | diverge => exact absurd rfl hg
  induction h with
  | start => intro h; cases h
  | step h hd hs ih =>
    intro h'
    rcases live h hd hs (by simp) (by simp) with ⟨-, -, hb⟩ | h2
    · exact hb
    · exact absurd h' h2
  | fail he h hd hs ih =>
    intro h'
    rcases live h hd hs (by simp) (by simp) with ⟨_, h2, _⟩ | h2
    · cases h2
    · exact absurd h' h2
  | more he h hd hs ih =>
    intro h'
    rcases live h hd hs (by simp) (by simp) with ⟨_, h2, _⟩ | h2
    · cases h2
    · exact absurd h' h2
  | hand h ih => exact ih
  | offset n h ih => exact ih

/-! ### C16 -/

/-- **C16**, what becomes of characters of several bytes: scanning without deferred scalars, whatever
is done, the part of the text that has been read holds only characters of one byte and the line
breaks U+0085, U+2028 and U+2029. No other character is ever got past. -/
theorem C16_read {errs : Bool} (hl : opts.lazy = false) {s : SS} (h : Reach errs opts (utf8 text) s) :
    ∃ p q, text = p ++ q ∧ s.buf = utf8 q ∧ ∀ c ∈ p, Narrow c :=
  thin_chars (reach_thin hl ((validUtf8_iff _).2 ⟨text, rfl⟩) h) text rfl

example : let text := "a: [\u0085 b\u2028] é".toList
    Reach true {} (utf8 text) (steps {} 6 ⟨{}, utf8 text, []⟩) ∧
    (steps {} 6 ⟨{}, utf8 text, []⟩).buf = utf8 " é".toList :=
  ⟨reach_steps 6 .start (by decide +kernel), by decide +kernel⟩

/-- **C16**, the converse of what it should say: if the end of the stream is handed out, no deferred
scalars being asked for, by any calls without a panic, then the text has no character of several
bytes except line breaks. So no text with any other character is ever scanned to its end. -/
theorem C16_end (hl : opts.lazy = false) (h : NoPanic (history opts text ops))
    (he : ∃ e ∈ handed (history opts text ops), e.marker = .StreamEnd) : ∀ c ∈ text, Narrow c := by
  have hv : validUtf8 (utf8 text) = true := (validUtf8_iff _).2 ⟨text, rfl⟩
  obtain ⟨D, ⟨⟨-, hM⟩, hR⟩, hD⟩ := reader_midway h
  obtain ⟨e, hm, hk⟩ := he
  have hdone : (readerAfter opts text ops).reader.src.state = .Done := by
    rcases hM with ⟨-, -, hN⟩ | ⟨hs, -⟩
    · exact absurd hk (hN.2 e (List.mem_append_left _ (hD.subset hm)))
    · exact hs
  obtain ⟨p, q, ht, hq, hp⟩ := C16_read (opts := { opts with extendable := false }) hl hR
  have hb : utf8 q = [] := by rw [← hq]; exact reach_done hv hR hdone
  have hq0 : q = [] := utf8_inj (a := q) (b := []) hb
  rw [ht, hq0, List.append_nil]
  exact hp

example : let text := "a: [\u0085 b ]\u2028".toList
    NoPanic (history {} text (List.replicate 12 .pop)) ∧
    (∃ e ∈ handed (history {} text (List.replicate 12 .pop)), e.marker = .StreamEnd) ∧
    ∃ c ∈ text, 128 ≤ c.toNat :=
  ⟨noPanic_of_decide (by decide +kernel), by decide +kernel, by decide +kernel⟩

end Yary
