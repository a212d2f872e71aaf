import Verif.Spec.Blocks

/-! # Block scalars: the texts that are accepted as one

With line breaks of all kinds, lines of blanks and lines of any characters. -/

namespace Yary.Spec

/-- The indicators after `|` or `>`: how to chomp, and a digit, in any order; both can be left out. -/
def Marks (w : Str) (c : Chomping) (d : Option Byte) : Prop :=
  (w = c.mark ++ d.toList ∨ w = d.toList ++ c.mark) ∧ ∀ x ∈ d, IsDigit x

/-- `l` is the rest of the line `l ++ t`. -/
def RestOfLine (l t : Str) : Prop := (∀ i < l.length, ¬ AtBreak ((l ++ t).drop i)) ∧ (t = [] ∨ AtBreak t)

/-- `HeaderText s c d r`: the first line of a block scalar, after `|` or `>`: its indicators, blanks, possibly a comment, and the line break or
the end of the text; then `r`. -/
def HeaderText (s : Str) (c : Chomping) (d : Option Byte) (r : Str) : Prop :=
  ∃ w bl cm b, s = w ++ (bl ++ (cm ++ (b ++ r))) ∧ Marks w c d ∧ (∀ x ∈ bl, x = 0x20 ∨ x = 0x09) ∧
    (cm = [] ∨ ∃ l, cm = b! '#' :: l ∧ RestOfLine l (b ++ r)) ∧ (b = [] ∧ r = [] ∨ BreakBefore b r)

/-- `Lead c s e k c' r`: from column `c` on, `s` is `e` line breaks, with nothing but spaces before them, the widest ending in column `k`, and
then spaces up to column `c'` and the text `r`, which starts with no white space, so with no tab. -/
inductive Lead : Nat → Str → Nat → Nat → Nat → Str → Prop where
  | done {c : Nat} {s : Str} (h : ¬ White s) : Lead c s 0 c c s
  | space {c c' e k : Nat} {t r : Str} (h : Lead (c + 1) t e k c' r) : Lead c (0x20 :: t) e k c' r
  | line {c c' e k : Nat} {w t r : Str} (hw : BreakBefore w t) (h : Lead 0 t e k c' r) : Lead c (w ++ t) (e + 1) (max c k) c' r

/-- `Margin n c s e c' r`: from column `c` on, `s` is `e` line breaks, with nothing but less than `n` spaces before them, and then spaces up to
column `c'` and the text `r`; `c'` is `n`, or else `r` starts with no white space, so with no tab. -/
inductive Margin (n : Nat) : Nat → Str → Nat → Nat → Str → Prop where
  | done {c : Nat} {s : Str} (h : c = n ∨ c < n ∧ ¬ White s) : Margin n c s 0 c s
  | space {c c' e : Nat} {t r : Str} (hc : c < n) (h : Margin n (c + 1) t e c' r) : Margin n c (0x20 :: t) e c' r
  | line {c c' e : Nat} {w t r : Str} (hc : c < n) (hw : BreakBefore w t) (h : Margin n 0 t e c' r) : Margin n c (w ++ t) (e + 1) c' r

/-- `LinesText n s l ls k r`: `s`, which is not empty, is the text `l` of a line that is indented by `n`, the lines `ls`, which are too, `k` line
breaks, and then `r`, which is not. -/
inductive LinesText (n : Nat) : Str → Str → List BlockLine → Nat → Str → Prop where
  | eof {l : Str} (hne : l ≠ []) (hl : RestOfLine l []) : LinesText n l l [] 0 []
  | last {l w t r : Str} {k c : Nat} (hl : RestOfLine l (w ++ t)) (hw : BreakBefore w t) (hm : Margin n 0 t k c r) (hr : c ≠ n ∨ r = []) :
      LinesText n (l ++ (w ++ t)) l [] (k + 1) r
  | more {l l' w t t' r : Str} {ls : List BlockLine} {e k : Nat} (hl : RestOfLine l (w ++ t)) (hw : BreakBefore w t) (hm : Margin n 0 t e n t')
      (h : LinesText n t' l' ls k r) : LinesText n (l ++ (w ++ t)) l (⟨e, l'⟩ :: ls) k r

/-- The number of bytes of a character that starts with the byte. -/
def charLen (b : Byte) : Nat :=
  if b < 0x80 then 1 else if b < 0xC0 then 0 else if b < 0xE0 then 2 else if b < 0xF0 then 3 else if b < 0xF8 then 4 else 0

/-- The number of bytes of the character after the first byte. -/
def secondLen : Str → Nat
  | _ :: b :: _ => charLen b
  | _ => 0

/-- What is read for a scalar with the text `u` after its first line. It is its value, but for a single line right after the header: what is read
after that is a part of `u`, with `+` only one byte of a single line break, and else as many bytes as the character after its first byte has. -/
def BlockScalar.read (x : BlockScalar) (u : Str) : Str :=
  if x.first.empty = 0 ∧ x.more = [] then
    x.first.text ++ match x.chomp with
      | .strip => []
      | .clip => u.take (secondLen u)
      | .keep => if x.breaks = 1 then u.take 1 else newlines x.breaks
  else x.value

/-- `BlockText base s fold v r`: `s` is the text of a block scalar in a collection with the indentation `base`, with the value `v`, and then `r`.
Its lines are indented by what the widest of its first lines up to the first one that is not blank is, but more than `base`. -/
inductive BlockText (base : Nat) : Str → Bool → Str → Str → Prop where
  /-- With lines. -/
  | lines {x : BlockScalar} {d : Option Byte} {s t u r : Str} {k n : Nat} (hd : ∀ b ∈ d, b = b! '0') (hh : HeaderText s x.chomp d t)
      (hl : Lead 0 t x.first.empty k n (x.first.text ++ u)) (hn : n = max k (base + 1))
      (hx : LinesText n (x.first.text ++ u) x.first.text x.more x.breaks r) :
      BlockText base ((if x.fold then b! '>' else b! '|') :: s) x.fold (x.read u) r
  /-- Without: the first one that is not blank is indented less than others, or not more than `base`. -/
  | empty {fold : Bool} {c : Chomping} {d : Option Byte} {s t r : Str} {e k n : Nat} (hd : ∀ b ∈ d, b = b! '0') (hh : HeaderText s c d t)
      (hl : Lead 0 t e k n r) (hn : n ≠ max k (base + 1) ∨ r = []) :
      BlockText base ((if fold then b! '>' else b! '|') :: s) fold (if c = .keep then newlines e else []) r

end Yary.Spec
