import Verif.Proof.Scan.BlockValue
import Verif.Props.Scalars

/-! # Block scalars

`Spec/Blocks` says how block scalars are written and what their value is. As in `Props/Scalars`, the theorems range over
the states of a scanner between two tokens. -/

namespace Yary

open Spec

variable {opts : SFlags} {s : SS} {x : BlockScalar} {n j : Nat} {q : Str}

/-- The one case in which a line break is lost: a single line, right after the header, with one line break
after it, at the end of the text, and no chomping indicator. -/
def LosesBreak (x : BlockScalar) (j : Nat) (q : Str) : Prop :=
  x.first.empty = 0 ∧ x.more = [] ∧ x.chomp = .clip ∧ x.breaks = 1 ∧ j = 0 ∧ q = []

theorem scannedValue_eq (h : ¬ LosesBreak x j q) : scannedValue x j q = x.value := by
  unfold LosesBreak at h
  unfold scannedValue BlockScalar.value
  rw [if_neg h]

/-! ### C29 -/

/-- **C29**, for lines of ASCII text between line feeds: a literal scalar is scanned, and its value is the text of its lines,
with all line breaks but those at the end that its chomping indicator drops, but for the case in which one is lost.
Missing: that case, where it is false (`C29_false`), other line breaks and lines of nothing but blanks, for which
it is false as well, and text that is not ASCII, on which the scanner panics. -/
theorem C29_partial (hx : opts.extendable = false) (hl : opts.lazy = false) (hk : ¬ KeyDue s) (hf : s.sc.context.flow = 0)
    (hi : IndentedBelow n s.sc.context) (hok : x.Ok) (hlit : x.fold = false) (hb : x.Before n j q) (hc : Comes s (x.written n ++ (spaces j ++ q)))
    (hlost : ¬ LosesBreak x j q) :
    ∃ s', Scan.scanNextToken opts s = (.ok (), s') ∧ s'.buf = q ∧
      Pushes s s' (.Token (.Scalar (newlines x.first.empty ++ x.first.text ++ moreLines 0 x.more ++ newlines (x.chomp.keeps x.breaks)) .Literal)) := by
  obtain ⟨s', h1, h2, h3⟩ := step_block_ok hx hl hk hf hi hok hb hc
  refine ⟨s', h1, h3, ?_⟩
  rw [scannedValue_eq hlost, hlit] at h2
  simpa [BlockScalar.value, BlockScalar.content, hlit, blockStyle] using h2

/-- The state before the value in a mapping: a literal scalar of three lines, two of which have empty lines
before them, with two line breaks at the end, and then the next key. -/
def blockExample : SS := steps {} 3 ⟨{}, bytes! "k: |\n\n  a b\n   c\n\n  d\n\nl: m", []⟩

/-- That scalar. -/
def blockScalarExample (ch : Chomping) : BlockScalar := ⟨false, ch, ⟨1, bytes! "a b"⟩, [⟨0, bytes! " c"⟩, ⟨1, bytes! "d"⟩], 2⟩

/-- The step from there: one of the line breaks stays. -/
example : Reach true {} (bytes! "k: |\n\n  a b\n   c\n\n  d\n\nl: m") blockExample ∧ (Scan.scanNextToken {} blockExample).1 = .ok () ∧
    (pushedBy blockExample (Scan.scanNextToken {} blockExample).2).map (·.wrap) = [.Token (.Scalar (bytes! "\na b\n c\n\nd\n") .Literal)] ∧
    (Scan.scanNextToken {} blockExample).2.buf = bytes! "l: m" :=
  ⟨reach_steps 3 .start (by decide +kernel), by decide +kernel, by decide +kernel, by decide +kernel⟩

/-- The text there. -/
example : Comes blockExample ((blockScalarExample .clip).written 2 ++ (spaces 0 ++ bytes! "l: m")) ∧ ¬ KeyDue blockExample ∧
    blockExample.sc.context.flow = 0 ∧ IndentedBelow 2 blockExample.sc.context ∧ (blockScalarExample .clip).Before 2 0 (bytes! "l: m") ∧
    ¬ LosesBreak (blockScalarExample .clip) 0 (bytes! "l: m") := by
  refine ⟨⟨by decide +kernel, ⟨0, ?_⟩, [0x20], by decide +kernel, by decide⟩, ?_, by decide +kernel, ⟨by decide +kernel, by decide +kernel⟩,
    ⟨by decide, by decide, .inr ⟨_, _, rfl, by decide, by decide⟩⟩, ?_⟩
  · have : blockExample.buf = 0x20 :: ((blockScalarExample .clip).written 2 ++ (spaces 0 ++ bytes! "l: m")) := by decide +kernel
    rw [this]
    refine .blank (.inl rfl) (.done ?_ ?_ (not_break_of (by decide)) ?_)
    · rintro t h; cases h
    · rintro t h; cases h
    · rintro - t h; cases h
  · rintro ⟨k, hk, -⟩
    have : blockExample.sc.key = none := by decide +kernel
    rw [this] at hk
    cases hk
  · rintro ⟨h, -⟩; cases h

/-- Its lines, and what it means with each of the chomping indicators. -/
example (ch : Chomping) : (blockScalarExample ch).Ok := by
  refine ⟨?_, ?_⟩
  · show ∀ l ∈ [(⟨1, bytes! "a b"⟩ : BlockLine), ⟨0, bytes! " c"⟩, ⟨1, bytes! "d"⟩], _
    decide
  · intro l _ h t
    rcases h with rfl | h
    · constructor <;> (intro h; cases h)
    · cases h

example : (blockScalarExample .strip).value = bytes! "\na b\n c\n\nd" ∧ (blockScalarExample .clip).value = bytes! "\na b\n c\n\nd\n" ∧
    (blockScalarExample .keep).value = bytes! "\na b\n c\n\nd\n\n" := by decide +kernel

/-- **C29** is false. A single line, right after the header, loses the line break after it at the end of the text, always;
a line of blanks that is indented like the scalar stays, with the line break before it, in spite of `-`; and of CR LF, only
the CR stays. -/
theorem C29_false :
    (∀ {opts : SFlags} {s : SS} {x : BlockScalar} {n : Nat}, opts.extendable = false → opts.lazy = false → ¬ KeyDue s → s.sc.context.flow = 0 →
      IndentedBelow n s.sc.context → x.Ok → 0 < n → LosesBreak x 0 [] → Comes s (x.written n) →
      x.value = x.first.text ++ [0x0A] ∧ ∃ s', Scan.scanNextToken opts s = (.ok (), s') ∧ Pushes s s' (.Token (.Scalar x.first.text (if x.fold then .Folded else .Literal)))) ∧
    (∃ s, Reach true {} (bytes! "|-\n  a\n  \n") s ∧ (Scan.scanNextToken {} s).1 = .ok () ∧
      (pushedBy s (Scan.scanNextToken {} s).2).map (·.wrap) = [.Token (.Scalar (bytes! "a\n") .Literal)]) ∧
    ∃ s, Reach true {} (bytes! "|\n  a\r\n...") s ∧ (Scan.scanNextToken {} s).1 = .ok () ∧
      (pushedBy s (Scan.scanNextToken {} s).2).map (·.wrap) = [.Token (.Scalar (bytes! "a\r") .Literal)] := by
  refine ⟨?_, ⟨steps {} 1 ⟨{}, bytes! "|-\n  a\n  \n", []⟩, reach_steps 1 .start (by decide +kernel), by decide +kernel, by decide +kernel⟩,
    ⟨steps {} 1 ⟨{}, bytes! "|\n  a\r\n...", []⟩, reach_steps 1 .start (by decide +kernel), by decide +kernel, by decide +kernel⟩⟩
  intro opts s x n hx hl hk hf hi hok hn hlost hc
  obtain ⟨s', h1, h2, -⟩ := step_block_ok (j := 0) (q := []) hx hl hk hf hi hok
    ⟨hn, fun _ => ⟨rfl, rfl⟩, .inl rfl⟩ (by simpa using hc)
  have hs : scannedValue x 0 [] = x.first.text := by
    unfold LosesBreak at hlost
    unfold scannedValue
    rw [if_pos hlost]
    obtain ⟨e1, e2, -⟩ := hlost
    simp [BlockScalar.content, e1, e2, foldedLines, moreLines]
  refine ⟨?_, s', h1, ?_⟩
  · obtain ⟨e1, e2, e3, e4, -⟩ := hlost
    simp [BlockScalar.value, BlockScalar.content, e1, e2, e3, e4, foldedLines, moreLines, Chomping.keeps, newlines]
  · rw [hs] at h2
    exact h2

/-- Such a line. -/
example : Comes (steps {} 1 ⟨{}, bytes! "|\n  a\n", []⟩) ((⟨false, .clip, ⟨0, bytes! "a"⟩, [], 1⟩ : BlockScalar).written 2) ∧
    (pushedBy (steps {} 1 ⟨{}, bytes! "|\n  a\n", []⟩) (Scan.scanNextToken {} (steps {} 1 ⟨{}, bytes! "|\n  a\n", []⟩)).2).map (·.wrap) =
      [.Token (.Scalar (bytes! "a") .Literal)] := by
  refine ⟨⟨by decide +kernel, ⟨0, ?_⟩, [], by decide +kernel, by decide⟩, by decide +kernel⟩
  have : (steps {} 1 ⟨{}, bytes! "|\n  a\n", []⟩).buf = bytes! "|\n  a\n" := by decide +kernel
  rw [this]
  refine .done ?_ ?_ (not_break_of (by decide)) ?_
  · rintro t h; cases h
  · rintro t h; cases h
  · rintro - t h; cases h

/-! ### C40 -/

/-- **C40**, for lines of ASCII text between line feeds that start with no blank: in a folded scalar, the line breaks between two
lines are folded, to a space if there are no empty lines between them and else to one line break less; those before
the first line and those at the end are as in a literal one. Missing: as in **C29**; and lines that start with blanks, which should
not be folded (`C40_false`). -/
theorem C40_partial (hx : opts.extendable = false) (hl : opts.lazy = false) (hk : ¬ KeyDue s) (hf : s.sc.context.flow = 0)
    (hi : IndentedBelow n s.sc.context) (hok : x.Ok) (hfold : x.fold = true) (hb : x.Before n j q) (hc : Comes s (x.written n ++ (spaces j ++ q)))
    (hlost : ¬ LosesBreak x j q) :
    ∃ s', Scan.scanNextToken opts s = (.ok (), s') ∧ s'.buf = q ∧
      Pushes s s' (.Token (.Scalar (newlines x.first.empty ++ x.first.text ++ foldedLines x.more ++ newlines (x.chomp.keeps x.breaks)) .Folded)) := by
  obtain ⟨s', h1, h2, h3⟩ := step_block_ok hx hl hk hf hi hok hb hc
  refine ⟨s', h1, h3, ?_⟩
  rw [scannedValue_eq hlost, hfold] at h2
  simpa [BlockScalar.value, BlockScalar.content, hfold, blockStyle] using h2

/-- The step on a folded scalar. -/
example : (Scan.scanNextToken {} (steps {} 1 ⟨{}, bytes! ">+\n  a b\n  c\n\n  d\n\n", []⟩)).1 = .ok () ∧
    (pushedBy (steps {} 1 ⟨{}, bytes! ">+\n  a b\n  c\n\n  d\n\n", []⟩)
      (Scan.scanNextToken {} (steps {} 1 ⟨{}, bytes! ">+\n  a b\n  c\n\n  d\n\n", []⟩)).2).map (·.wrap) =
      [.Token (.Scalar (bytes! "a b c\nd\n\n") .Folded)] ∧
    (⟨true, .keep, ⟨0, bytes! "a b"⟩, [⟨0, bytes! "c"⟩, ⟨1, bytes! "d"⟩], 2⟩ : BlockScalar).written 2 = bytes! ">+\n  a b\n  c\n\n  d\n\n" := by
  decide +kernel

/-- Lines that are indented more are folded as well: this text should mean `a`, ` b` and `c` in lines of their own. -/
theorem C40_false : ∃ s, Reach true {} (bytes! ">\n  a\n   b\n  c\n") s ∧ (Scan.scanNextToken {} s).1 = .ok () ∧
    (pushedBy s (Scan.scanNextToken {} s).2).map (·.wrap) = [.Token (.Scalar (bytes! "a  b c\n") .Folded)] :=
  ⟨steps {} 1 ⟨{}, bytes! ">\n  a\n   b\n  c\n", []⟩, reach_steps 1 .start (by decide +kernel), by decide +kernel, by decide +kernel⟩

end Yary
