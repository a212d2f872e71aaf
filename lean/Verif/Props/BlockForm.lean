import Verif.Proof.Scan.Suffix
import Verif.Proof.Scan.BlockMeans
import Verif.Props.Blocks

/-! # The texts that are accepted as block scalars -/

namespace Yary

open Spec

variable {opts : SFlags} {doc : List Char} {s s' : SS}

/-! ### C54 -/

/-- **C54**: a block scalar that is scanned is written in the text: after white space and comments, `|` or `>` and its header, and
lines that are indented more than the collection it is in. Its value is what these lines say, and scanning goes on right behind
them. It is scanned in no flow collection. -/
theorem C54_means (h : Reach true opts (utf8 doc) s) (hs : Scan.scanNextToken opts s = (.ok (), s')) {e : TokenEntry} {v : Str} {fold : Bool}
    (he : e ∈ pushedBy s s') (ht : e.wrap = .Token (.Scalar v (if fold then .Folded else .Literal))) :
    ∃ n p text, s.buf = p ++ text ∧ Skips true s.buf n text ∧ s'.sc.context.flow = 0 ∧
      BlockText (s'.sc.context.level.getD 0) text fold v s'.buf := by
  obtain ⟨n, p, text, h1, h2, h3, h4⟩ := Blocks.step_block (reach_before ((validUtf8_iff _).2 ⟨doc, rfl⟩) h) hs he ht
  refine ⟨n, p, text, h2, h1, ?_, h4⟩
  simpa [Context.isBlock] using h3

/-- **C54**: what is read for a block scalar, and where it ends, is determined by its text. -/
theorem C54_unique {base : Nat} {t v v' r r' : Str} {fold fold' : Bool} (h : BlockText base t fold v r) (h' : BlockText base t fold' v' r') :
    fold = fold' ∧ v = v' ∧ r = r' :=
  Blocks.blockText_unique h h'

/-- What is read is the value of the scalar, unless it is a single line right after the header that ends in something else than a line feed before
an ASCII character, or than several line breaks that are kept. -/
theorem C54_read {x : BlockScalar} {u : Str} (h : x.first.empty ≠ 0 ∨ x.more ≠ [] ∨ x.chomp = .strip ∨ (u = [] ∧ x.breaks = 0) ∨
    (∃ b t, u = 0x0A :: b :: t ∧ b < 128 ∧ 0 < x.breaks) ∨ (x.chomp = .keep ∧ 1 < x.breaks)) : x.read u = x.value := by
  by_cases h1 : x.first.empty = 0 ∧ x.more = []
  · have hval : x.value = x.first.text ++ newlines (x.chomp.keeps x.breaks) := by
      unfold BlockScalar.value BlockScalar.content
      rw [h1.1, h1.2]
      cases x.fold <;> simp [foldedLines, moreLines, newlines]
    rw [hval, BlockScalar.read, if_pos h1]
    congr 1
    rcases h with h | h | h | h | h | h
    · exact absurd h1.1 h
    · exact absurd h1.2 h
    · rw [h]; simp [Chomping.keeps, newlines]
    · rw [h.1, h.2]
      cases x.chomp <;> simp [Chomping.keeps, newlines]
    · obtain ⟨b, t, rfl, hb, hk⟩ := h
      have hb' : b < 0x80 := hb
      have hmin : min x.breaks 1 = 1 := by omega
      cases x.chomp with
      | strip => simp [Chomping.keeps, newlines]
      | clip => simp [Chomping.keeps, newlines, secondLen, charLen, hb', hmin]
      | keep =>
        simp only [Chomping.keeps]
        split
        · rename_i h; rw [h]; rfl
        · rfl
    · obtain ⟨h, hk⟩ := h
      rw [h]
      simp only [Chomping.keeps]
      rw [if_neg (by omega)]
  · exact Blocks.read_value u (by
      by_cases h2 : x.first.empty = 0
      · exact .inr fun h3 => h1 ⟨h2, h3⟩
      · exact .inl h2)

/-- A scalar of two lines: the step that reads it. -/
example : Reach true {} (utf8 "|-  # c\n  a\n\n   b\r\nc".toList) (steps {} 1 ⟨{}, utf8 "|-  # c\n  a\n\n   b\r\nc".toList, []⟩) ∧
    (Scan.scanNextToken {} (steps {} 1 ⟨{}, utf8 "|-  # c\n  a\n\n   b\r\nc".toList, []⟩)).1 = .ok () ∧
    (pushedBy (steps {} 1 ⟨{}, utf8 "|-  # c\n  a\n\n   b\r\nc".toList, []⟩)
      (Scan.scanNextToken {} (steps {} 1 ⟨{}, utf8 "|-  # c\n  a\n\n   b\r\nc".toList, []⟩)).2).map (·.wrap) =
      [.Token (.Scalar (bytes! "a\n\n b") .Literal)] :=
  ⟨reach_steps 1 .start (by decide +kernel), by decide +kernel, by decide +kernel⟩

/-- And its form. -/
example : BlockText 0 (bytes! "|-  # c\n  a\n\n   b\r\nc") false (bytes! "a\n\n b") (bytes! "c") := by
  have hlf : ∀ t, BreakBefore [0x0A] t := fun t => ⟨by decide, fun h => absurd h.1 (by decide)⟩
  have hcr : ∀ t, BreakBefore [0x0D, 0x0A] t := fun t => ⟨by decide, fun h => absurd h.1 (by decide)⟩
  have := BlockText.lines (base := 0) (x := ⟨false, .strip, ⟨0, bytes! "a"⟩, [⟨1, bytes! " b"⟩], 1⟩) (d := none) (s := bytes! "-  # c\n  a\n\n   b\r\nc")
    (t := bytes! "  a\n\n   b\r\nc") (u := bytes! "\n\n   b\r\nc") (r := bytes! "c") (k := 2) (n := 2) (by simp)
    ⟨bytes! "-", bytes! "  ", bytes! "# c", [0x0A], rfl, ⟨.inl rfl, by simp⟩, by decide, .inr ⟨bytes! " c", rfl, restOfLine_ascii (by decide) (.inr ⟨[0x0A], by decide, _, rfl⟩)⟩, .inr (hlf _)⟩
    (.space (.space (.done (by rintro (⟨t, h | h⟩ | h); · cases h
                               · cases h
                               · exact absurd (atBreak_iff.1 h) (by decide))))) rfl
    (.more (w := [0x0A]) (l := bytes! "a") (t := bytes! "\n   b\r\nc") (restOfLine_ascii (by decide) (.inr ⟨[0x0A], by decide, _, rfl⟩)) (hlf _)
      (Margin.line (n := 2) (w := [0x0A]) (t := bytes! "   b\r\nc") (by decide) (hlf _) (.space (by decide) (.space (by decide) (.done (.inl rfl)))))
      (LinesText.last (n := 2) (l := bytes! " b") (w := [0x0D, 0x0A]) (t := bytes! "c") (c := 0) (k := 0) (restOfLine_ascii (by decide) (.inr ⟨[0x0D, 0x0A], by decide, _, rfl⟩)) (hcr _)
        (.done (.inr ⟨by decide, by rintro (⟨t, h | h⟩ | h); · cases h
                                    · cases h
                                    · exact absurd (atBreak_iff.1 h) (by decide)⟩)) (.inl (by decide))))
  exact this

/-- Texts that should be errors, and are not: the digit 0, a comment without a blank before it, and a line of blanks that is wider than the
first line, which ends the scalar. -/
theorem C54_false :
    (∃ s, Reach true {} (bytes! "|0\n  a\n ") s ∧ (Scan.scanNextToken {} s).1 = .ok () ∧
      (pushedBy s (Scan.scanNextToken {} s).2).map (·.wrap) = [.Token (.Scalar (bytes! "a\n") .Literal)]) ∧
    (∃ s, Reach true {} (bytes! "|#x\n  a\n ") s ∧ (Scan.scanNextToken {} s).1 = .ok () ∧
      (pushedBy s (Scan.scanNextToken {} s).2).map (·.wrap) = [.Token (.Scalar (bytes! "a\n") .Literal)]) ∧
    ∃ s, Reach true {} (bytes! "|\n    \n  a\n ") s ∧ (Scan.scanNextToken {} s).1 = .ok () ∧
      (pushedBy s (Scan.scanNextToken {} s).2).map (·.wrap) = [.Token (.Scalar [] .Literal)] ∧ (Scan.scanNextToken {} s).2.buf = bytes! "a\n " :=
  ⟨⟨steps {} 1 ⟨{}, bytes! "|0\n  a\n ", []⟩, reach_steps 1 .start (by decide +kernel), by decide +kernel, by decide +kernel⟩,
    ⟨steps {} 1 ⟨{}, bytes! "|#x\n  a\n ", []⟩, reach_steps 1 .start (by decide +kernel), by decide +kernel, by decide +kernel⟩,
    ⟨steps {} 1 ⟨{}, bytes! "|\n    \n  a\n ", []⟩, reach_steps 1 .start (by decide +kernel), by decide +kernel, by decide +kernel, by decide +kernel⟩⟩

end Yary
