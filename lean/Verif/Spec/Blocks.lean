import Verif.Spec.Scalars
import Verif.Spec.Steps

/-! # Block scalars: how they are written, and what they mean -/

namespace Yary.Spec

/-- What becomes of the line breaks after the last line of a block scalar. -/
inductive Chomping where
  | strip | clip | keep
  deriving DecidableEq, Repr

/-- The indicator. -/
def Chomping.mark : Chomping → Str
  | .strip => [b! '-']
  | .clip => []
  | .keep => [b! '+']

/-- How many of `n` line breaks at the end stay. -/
def Chomping.keeps : Chomping → Nat → Nat
  | .strip, _ => 0
  | .clip, n => min n 1
  | .keep, n => n

/-- A line of a block scalar: the number of empty lines before it, and its text, without the indentation. -/
structure BlockLine where
  empty : Nat
  text : Str
  deriving DecidableEq, Repr

/-- A block scalar: folded (`>`) or literal (`|`), its first line, the others, and the number of line breaks
after the last one. -/
structure BlockScalar where
  fold : Bool
  chomp : Chomping
  first : BlockLine
  more : List BlockLine
  breaks : Nat
  deriving DecidableEq, Repr

def newlines (n : Nat) : Str := List.replicate n 0x0A
def spaces (n : Nat) : Str := List.replicate n 0x20

/-- The lines after the first one, indented by `n`. -/
def moreLines (n : Nat) (ls : List BlockLine) : Str := ls.flatMap fun l => newlines (l.empty + 1) ++ spaces n ++ l.text

/-- The lines after the first one, folded. -/
def foldedLines (ls : List BlockLine) : Str := ls.flatMap fun l => folded l.empty ++ l.text

/-- How the scalar is written, indented by `n`. -/
def BlockScalar.written (x : BlockScalar) (n : Nat) : Str :=
  (if x.fold then b! '>' else b! '|') :: (x.chomp.mark ++ newlines (x.first.empty + 1) ++ spaces n ++ x.first.text ++
    moreLines n x.more ++ newlines x.breaks)

/-- Its lines, without the line breaks at the end. -/
def BlockScalar.content (x : BlockScalar) : Str :=
  newlines x.first.empty ++ x.first.text ++ if x.fold then foldedLines x.more else moreLines 0 x.more

/-- Its value. -/
def BlockScalar.value (x : BlockScalar) : Str := x.content ++ newlines (x.chomp.keeps x.breaks)

/-- The lines are not empty, ASCII, and have no line breaks in them. The first one starts with no blank (it
sets the indentation); in folded scalars none does. -/
def BlockScalar.Ok (x : BlockScalar) : Prop :=
  (∀ l ∈ x.first :: x.more, l.text ≠ [] ∧ ∀ b ∈ l.text, b < 128 ∧ b ≠ 0x0A ∧ b ≠ 0x0D) ∧
    ∀ l ∈ x.first :: x.more, l = x.first ∨ x.fold = true → ∀ t, l.text ≠ 0x20 :: t ∧ l.text ≠ 0x09 :: t

/-- `q` may follow the scalar, after `j` blanks: it is the end of the text, or it is in a line of its own,
indented less than the scalar. -/
def BlockScalar.Before (x : BlockScalar) (n j : Nat) (q : Str) : Prop :=
  j < n ∧ (x.breaks = 0 → j = 0 ∧ q = []) ∧ (q = [] ∨ ∃ b t, q = b :: t ∧ 0x20 < b ∧ b < 0x7F)

/-- All block collections the scanner is in are indented less than `n`. -/
def IndentedBelow (n : Nat) (x : Context) : Prop := x.indent < n ∧ ∀ e ∈ x.indents, e.indent < n

end Yary.Spec
