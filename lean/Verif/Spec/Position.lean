import Verif.Model.Scan.Macros

/-! # Lines, positions, and what may stand between tokens -/

namespace Yary.Spec

/-- The line breaks: CR LF, CR, LF, and the characters U+0085, U+2028 and U+2029. -/
def lineBreaks : List Str := [[0x0D, 0x0A], [0x0D], [0x0A], [0xC2, 0x85], [0xE2, 0x80, 0xA8], [0xE2, 0x80, 0xA9]]

/-- A line break is next. -/
def AtBreak (s : Str) : Prop := ∃ w ∈ lineBreaks, w <+: s

/-- `w` is the line break at the start of `w ++ t`: CR LF is one line break. -/
def BreakBefore (w t : Str) : Prop := w ∈ lineBreaks ∧ ¬ (w = [0x0D] ∧ ∃ u, t = 0x0A :: u)

/-- The lines of a text, without the line breaks. -/
def linesOf : Str → List Str
  | [] => [[]]
  | 0x0D :: 0x0A :: t => [] :: linesOf t
  | 0x0D :: t => [] :: linesOf t
  | 0x0A :: t => [] :: linesOf t
  | 0xC2 :: 0x85 :: t => [] :: linesOf t
  | 0xE2 :: 0x80 :: 0xA8 :: t => [] :: linesOf t
  | 0xE2 :: 0x80 :: 0xA9 :: t => [] :: linesOf t
  | b :: t => match linesOf t with
    | [] => [[b]]
    | l :: ls => (b :: l) :: ls

/-- The position after a text that begins at the position `m`: bytes, line breaks, and bytes since
the last line break. -/
def posAfter (m : MStats) (p : Str) : MStats :=
  { read := m.read + p.length
    lines := m.lines + ((linesOf p).length - 1)
    column := match linesOf p with
      | [l] => m.column + l.length
      | ls => (ls.getLast?.getD []).length }

/-- A cursor consumes the text `p` in steps: characters without a line break among them, or one
line break. -/
inductive Consumes : Cur → Str → Cur → Prop where
  | done (c : Cur) : Consumes c [] c
  | chars {c c1 c' : Cur} {n : Nat} {p : Str} (h : c.adv n = .ok c1)
      (hn : ∀ i < n, ¬ AtBreak (c.buf.drop i)) (h' : Consumes c1 p c') :
      Consumes c (c.buf.take n ++ p) c'
  | line {c c1 c' : Cur} {w p t : Str} (hb : c.buf = w ++ t) (hw : BreakBefore w t)
      (h : c.line = .ok c1) (h' : Consumes c1 p c') : Consumes c (w ++ p) c'

/-- `Skips comments s n r`: at the start of `s` there are blanks, line breaks and, if `comments`,
comments, with `n` line breaks outside of comments, and then `r`, which starts with none of them. A
comment goes from `#` up to a line break or the end. -/
inductive Skips (comments : Bool) : Str → Nat → Str → Prop where
  | done {s : Str} (h1 : ∀ t, s ≠ 0x20 :: t) (h2 : ∀ t, s ≠ 0x09 :: t) (h3 : ¬ AtBreak s)
      (h4 : comments = true → ∀ t, s ≠ 0x23 :: t) : Skips comments s 0 s
  | blank {b : Byte} {t r : Str} {n : Nat} (hb : b = 0x20 ∨ b = 0x09) (h : Skips comments t n r) :
      Skips comments (b :: t) n r
  | line {w t r : Str} {n : Nat} (hw : BreakBefore w t) (h : Skips comments t n r) :
      Skips comments (w ++ t) (n + 1) r
  | comment {body t r : Str} {n : Nat} (hc : comments = true)
      (hb : ∀ i < body.length, ¬ AtBreak ((body ++ t).drop i)) (ht : t = [] ∨ AtBreak t)
      (h : Skips comments t n r) : Skips comments (0x23 :: (body ++ t)) n r

end Yary.Spec
