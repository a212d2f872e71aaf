import Verif.Proof.Moved.Run
import Verif.Props.Final

/-! # C73: empty lines and comments before a text change nothing but positions -/

namespace Yary

open Spec

/-- **C73**, for comments in ASCII: lines of spaces, tabs and comments before a text change nothing in what the calls of a stream over it return, but that all
positions after `StreamStart` are as many bytes further on as there are bytes in these lines. This holds up to and including the first failure of the source.
For all texts, all such lines, all flags, and all numbers of calls. -/
theorem C73_leading_lines_partial {opts : SFlags} {lines : Str} (hl : EmptyLines lines) (text : List Char)
    {os : List (Out ParseError (Option Event))} {s : PS Scanner} (h : Calls (borrowDrive opts (utf8 text)) (start {}) os s) :
    ∃ n os' s', Calls (borrowDrive opts (lines ++ utf8 text)) (start {}) os' s' ∧ upToSource os' = furtherOn lines.length n (upToSource os) :=
  Moved.lead hl ((validUtf8_iff _).2 ⟨text, rfl⟩) h

/-- **C73**, for comments in ASCII, of any calls over both texts: as many calls return the same, moved by the same number of bytes (and lines, where
positions of lines are kept). -/
theorem C73_same_calls_partial {opts : SFlags} {lines : Str} (hl : EmptyLines lines) (text : List Char) :
    ∃ n, ∀ {os os' : List (Out ParseError (Option Event))} {s s' : PS Scanner}, Calls (borrowDrive opts (utf8 text)) (start {}) os s →
      Calls (borrowDrive opts (lines ++ utf8 text)) (start {}) os' s' → os'.length = os.length →
      upToSource os' = furtherOn lines.length n (upToSource os) :=
  Moved.lead_same hl ((validUtf8_iff _).2 ⟨text, rfl⟩)

/-- Two comments, an empty line, and one of white space, with three kinds of line breaks. -/
theorem some_lines : EmptyLines (utf8 "# a: b\n \t#\r\n\n  \t\u2028".toList) :=
  .line (blanks := []) (note := bytes! "# a: b") (br := [0x0A]) (by decide) (.inr ⟨bytes! " a: b", rfl, by decide⟩) (by decide)
    (.line (blanks := [0x20, 0x09]) (note := [0x23]) (br := [0x0D, 0x0A]) (by decide) (.inr ⟨[], rfl, by decide⟩) (by decide)
      (.line (blanks := []) (note := []) (br := [0x0A]) (by decide) (.inl rfl) (by decide)
        (.line (blanks := [0x20, 0x20, 0x09]) (note := []) (br := [0xE2, 0x80, 0xA8]) (by decide) (.inl rfl) (by decide) .nil)))

/-- A sequence with a mapping and a block scalar, twelve calls: the theorem applies to them. -/
example : ∃ os s, Calls (borrowDrive {} (utf8 "- a\n- b: |\n   c\n".toList)) (start {}) os s ∧ os.length = 12 ∧
    .ok (some ⟨16, 16, .MappingEnd⟩) ∈ upToSource os := by
  have h := someCalls_calls (drive := borrowDrive {} (utf8 "- a\n- b: |\n   c\n".toList)) (fuel := 60) 12 (s := start {}) (by decide +kernel)
  exact ⟨_, _, h, by decide +kernel, by decide +kernel⟩

/-- So it does to as many calls over the text with the lines before it. -/
example : ∃ os s, Calls (borrowDrive {} (utf8 "# a: b\n \t#\r\n\n  \t\u2028".toList ++ utf8 "- a\n- b: |\n   c\n".toList)) (start {}) os s ∧ os.length = 12 := by
  have h := someCalls_calls (drive := borrowDrive {} (utf8 "# a: b\n \t#\r\n\n  \t\u2028".toList ++ utf8 "- a\n- b: |\n   c\n".toList)) (fuel := 60) 12
    (s := start {}) (by decide +kernel)
  exact ⟨_, _, h, by decide +kernel⟩

/-- And with the lines before it all events but the first are 19 bytes further on. -/
example : (someCalls (borrowDrive {} (utf8 "# a: b\n \t#\r\n\n  \t\u2028- a\n- b: |\n   c\n".toList)) 60 12 (start {})).1 =
    furtherOn (utf8 "# a: b\n \t#\r\n\n  \t\u2028".toList).length 4 (someCalls (borrowDrive {} (utf8 "- a\n- b: |\n   c\n".toList)) 60 12 (start {})).1 := by
  decide +kernel

/-- Also where the text is wrong: the error is the same, after the same events. -/
example : (someCalls (borrowDrive {} (utf8 "#x\n[a, 'b".toList)) 60 5 (start {})).1 =
    furtherOn 3 1 (someCalls (borrowDrive {} (utf8 "[a, 'b".toList)) 60 5 (start {})).1 := by
  decide +kernel

/-- **C73** for all comments is false: a comment that is not in ASCII is a panic, whatever follows it. -/
theorem C73_false : ∃ lines text : List Char, lines = "# é\n".toList ∧
    (nexts (Events.textDrive (fromUtf8 (lines ++ text)) 0) 60 2 Events.ofText).1[1]? = some .panic ∧
    (nexts (Events.textDrive (fromUtf8 text) 0) 60 6 Events.ofText).1[5]? = some (.ok none) :=
  ⟨"# é\n".toList, "a".toList, rfl, by decide +kernel⟩

end Yary
