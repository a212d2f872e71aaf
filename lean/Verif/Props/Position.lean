import Verif.Proof.Scan.Exact
import Verif.Proof.Scan.Texts
import Verif.Props.Scanner

/-! # Positions, and what stands between tokens -/

namespace Yary

open Spec

variable {opts : SFlags} {text : List Char} {ops : List ROp}

/-! ### C13 -/

/-- **C13**: however a text is consumed, step by step without splitting a line break, the position
after it is that of its bytes and lines. -/
theorem C13_consumes {c c' : Cur} {p : Str} (h : Consumes c p c') :
    c.buf = p ++ c'.buf ∧ c'.stats = posAfter c.stats p := by
  obtain ⟨h1, h2⟩ := h.reads
  obtain ⟨q, h3, h4⟩ := h1.posAfter
  rw [h2] at h3
  have := List.append_cancel_right h3
  subst this
  exact ⟨h2, h4⟩

/-- The text `a`, CR LF, `bcd`, consumed as `a`, the break, `b`, `c`. -/
example : Consumes ⟨bytes! "a\r\nbcd", {}⟩ (bytes! "a" ++ (bytes! "\r\n" ++ (bytes! "bc" ++ []))) ⟨bytes! "d", ⟨5, 1, 2⟩⟩ := by
  refine .chars (n := 1) rfl ?_ (.line (t := bytes! "bcd") rfl ?_ rfl (.chars (n := 2) rfl ?_ (.done _)))
  · intro i hi; rw [atBreak_iff]; revert i; decide +kernel
  · exact ⟨by decide, fun h => absurd h.1 (by decide)⟩
  · intro i hi; rw [atBreak_iff]; revert i; decide +kernel

example : posAfter {} (bytes! "a\r\nbc") = ⟨5, 1, 2⟩ := by decide +kernel

/-- **C13**, the whole scanner: after any calls without an error on a text without verbatim tags, the
scanner's position is that of the part of the text it has read, until it has read all of it. -/
theorem C13_scanner_partial (h : AllOk (history opts text ops))
    (hv : ∀ p t, utf8 text ≠ p ++ bytes! "!<" ++ t)
    (hn : (readerAfter opts text ops).reader.src.offset < (utf8 text).length)
    (hd : (readerAfter opts text ops).reader.src.state ≠ .Done) :
    (readerAfter opts text ops).reader.src.stats =
      posAfter {} ((utf8 text).take (readerAfter opts text ops).reader.src.offset) := by
  have hvalid : validUtf8 (utf8 text) = true := (validUtf8_iff _).2 ⟨text, rfl⟩
  obtain ⟨D, ⟨-, hm⟩, -⟩ := text_keeps_ok (I := fun _ => Exact (utf8 text)) (G := fun _ _ => True)
    (fun _ => closed_exact (fun p t hp => hv p t (by simp [hp])))
    (fun _ _ _ h => ⟨h.valid, h.suffix, h.exact⟩)
    (fun _ _ _ _ h _ => ⟨h.valid, h.suffix, h.exact⟩) (fun _ _ _ _ _ _ _ => trivial) hvalid
    ⟨hvalid, ⟨[], rfl⟩, .inl (.refl _)⟩ ops h
  rcases hm with ⟨-, hm⟩ | ⟨hm, -⟩
  · rcases hm.exact with hr | hr
    · obtain ⟨p, h1, h2⟩ := hr.posAfter
      simp only at h1 h2
      have h3 : p = (utf8 text).take (readerAfter opts text ops).reader.src.offset := by
        have h4 := List.take_append_drop (readerAfter opts text ops).reader.src.offset (utf8 text)
        exact List.append_cancel_right (h1.symm.trans h4.symm)
      rw [← h3]
      exact h2
    · exfalso
      have := congrArg List.length hr
      simp only [List.length_drop, List.length_nil] at this
      simp only [readerAfter] at hn
      unfold freshReader at hn
      omega
  · exact absurd hm hd

example : AllOk (history {} "a:\r\n  - é".toList (List.replicate 4 .pop)) :=
  allOk_of_decide (by decide +kernel)

/-- **C13** is false of the whole scanner with verbatim tags: `!<` and `>` are not counted. -/
theorem C13_scanner_false : ∃ (text : List Char) (ops : List ROp), AllOk (history {} text ops) ∧
    (readerAfter {} text ops).reader.src.offset = 9 ∧
    (readerAfter {} text ops).reader.src.stats.read = 6 :=
  ⟨"!<a>>\n x\ny".toList, [.pop, .pop], allOk_of_decide (by decide +kernel), by decide +kernel, by decide +kernel⟩

/-! ### C14 -/

/-- **C14**: what is skipped before a token are blanks, line breaks and comments, as many as there
are; the position is that after the skipped text, and the lines counted are the line breaks skipped. -/
theorem C14_skips {comments : Bool} {c c' : Cur} (h : eatWs opts comments c = .ok c') :
    ∃ n p, Skips comments c.buf n c'.buf ∧ c.buf = p ++ c'.buf ∧ c'.stats = posAfter c.stats p ∧
      c'.stats.lines = c.stats.lines + n := by
  obtain ⟨n, h1, h2⟩ := eatWsLoop_skips _ false c c' (by simp) h
  have hs := eatWs_sat (P := True) (opts := opts) (comments := comments) (c := c) (.inl trivial)
  rw [h] at hs
  obtain ⟨p, h3, h4⟩ := hs.posAfter
  exact ⟨n, p, by simpa using h2, h3, h4, h1⟩

/-- **C14**: what is to be skipped is determined by the text. -/
theorem C14_unique {comments : Bool} {s r r' : Str} {n n' : Nat} (h : Skips comments s n r)
    (h' : Skips comments s n' r') : n = n' ∧ r = r' := h.unique h'

/-- **C14**: skipping succeeds when the text is complete, if it is ASCII or if there are no comments
to be skipped. -/
theorem C14_succeeds {comments : Bool} {c : Cur} (hx : opts.extendable = false)
    (hc : (∀ b ∈ c.buf, b < 128) ∨ (comments = false ∧ ∃ l, c.buf = utf8 l)) :
    ∃ c', eatWs opts comments c = .ok c' :=
  eatWsLoop_ok hx _ false c (by simp) (by omega)
    (hc.imp id fun ⟨h, l, hl⟩ => ⟨h, (validUtf8_iff _).2 ⟨l, hl⟩⟩)

/-- **C14**: between two tokens the scanner skips white space and comments, and takes note of a
line change, after which a simple key may start, exactly if there was one. -/
theorem C14_line_change {s s' : SS} (h : Scan.eatWhitespace opts s = (.ok (), s')) :
    ∃ n p, Skips true s.buf n s'.buf ∧ s.buf = p ++ s'.buf ∧ s'.sc.stats = posAfter s.sc.stats p ∧
      s'.sc.stats.lines = s.sc.stats.lines + n ∧ s'.out = s.out ∧
      (s'.sc.simpleKeyAllowed = true ↔ s.sc.simpleKeyAllowed = true ∨ n ≠ 0) := by
  obtain ⟨c, h1, rfl⟩ := eatWhitespace_ok h
  obtain ⟨n, p, h2, h3, -, h5⟩ := C14_skips h1
  have hs := eatWs_sat (P := True) (opts := opts) (comments := true) (c := ⟨s.buf, {}⟩) (.inl trivial)
  rw [h1] at hs
  obtain ⟨q, h6, h7⟩ := (hs.add (m := s.sc.stats)).posAfter
  simp only at h2 h3 h5 h6 h7 ⊢
  have hz : s.sc.stats.add {} = s.sc.stats := by simp [MStats.add, MStats.update]
  rw [hz] at h7
  refine ⟨n, q, h2, h6, h7, by simp [MStats.add, MStats.update, h5], trivial, ?_⟩
  have : c.stats.lines = n := by simpa using h5
  rw [this]
  by_cases hn : n = 0 <;> simp [hn]

/-- A line break, a comment, a line break, blanks: two line breaks are skipped. -/
example : ∃ s', Scan.eatWhitespace {} ⟨{ simpleKeyAllowed := false }, bytes! " \n# c\r\n  x", []⟩ = (.ok (), s') ∧
    s'.buf = bytes! "x" ∧ s'.sc.stats = ⟨9, 2, 2⟩ ∧ s'.sc.simpleKeyAllowed = true :=
  ⟨_, rfl, by decide +kernel, by decide +kernel, by decide +kernel⟩

end Yary
