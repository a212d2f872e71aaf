import Verif.Spec.Faults

/-! # Where the scanner panics

The texts on which it can. -/

namespace Yary.Spec

/-- A character of more than one byte is next that is no line break. -/
def Wide (s : Str) : Prop := (∃ b t, s = b :: t ∧ 0x80 ≤ b) ∧ ¬ AtBreak s

/-- There is no line break in `l`, if `t` follows. -/
def SameLine (l t : Str) : Prop := ∀ i < l.length, ¬ AtBreak ((l ++ t).drop i)

/-- `WideComment s`: between the blanks, line breaks and comments at the start of `s`, there is a comment with such a character. -/
inductive WideComment : Str → Prop where
  | here {l t : Str} (hl : SameLine l t) (ht : Wide t) : WideComment (0x23 :: (l ++ t))
  | blank {b : Byte} {t : Str} (hb : b = 0x20 ∨ b = 0x09) (h : WideComment t) : WideComment (b :: t)
  | line {w t : Str} (hw : BreakBefore w t) (h : WideComment t) : WideComment (w ++ t)
  | comment {l t : Str} (hl : RestOfLine l t) (h : WideComment t) : WideComment (0x23 :: (l ++ t))

/-- `NoUtf8 verbatim s`: the `%XX` in the text `s` of a tag do not decode to UTF-8. -/
def NoUtf8 (verbatim : Bool) (s : Str) : Prop :=
  ∃ w u r, s = w ++ r ∧ PercentDecode verbatim w u ∧ UriEnds verbatim r ∧ ¬ ∃ l, u = utf8 l

/-- `TagJam s`: the tag `s` makes the scanner panic. -/
inductive TagJam : Str → Prop where
  | verbatim {s : Str} (h : NoUtf8 true s) : TagJam (bytes! "!<" ++ s)
  | suffix {h s : Str} (hh : HandleAt h s) (hv : ∀ t, h ++ s ≠ bytes! "!<" ++ t) (hs : NoUtf8 false s) : TagJam (h ++ s)

/-- `DirectiveJam s`: so does the directive `s`, with such a prefix. -/
inductive DirectiveJam : Str → Prop where
  | uri {s h s' r : Str} {n n' : Nat} (hs : Skips false s n (h ++ s')) (hh : HandleAt h s')
      (hb : ∃ t, s' = 0x20 :: t ∨ s' = 0x09 :: t) (hs' : Skips false s' n' r) (he : NoUtf8 false r) : DirectiveJam (bytes! "%TAG" ++ s)

/-- `QuotedJam single s`: so does the text `s` after an opening quote. -/
inductive QuotedJam (single : Bool) (s : Str) : Prop where
  | wide {t : Str} (h : Within single s t) (ht : Wide t)
  /-- A code that denotes no character, in a scalar that is closed. -/
  | code {b : Byte} {d t r : Str} {v : Nat} (hs : single = false) (h : Within single s (0x5C :: b :: (d ++ t))) (hb : (b, d.length) ∈ escapeCodes)
      (hd : hexNumber d = some v) (hv : ¬ IsScalarValue v) (hr : Within single s (0x22 :: r))

/-- `InPlain block indent m s m' t`: at the position `m`, `s` is words of a plain scalar, and then, at the position `m'`, the start `t` of another
one. -/
inductive InPlain (block : Bool) (indent : Nat) (m : MStats) (s : Str) : MStats → Str → Prop where
  | start : InPlain block indent m s m s
  | more {m' : MStats} {w p t : Str} {n : Nat} (h : InPlain block indent m s m' (w ++ (p ++ t))) (hw : PlainWord block w (p ++ t))
      (hs : Skips false (p ++ t) n t) (hg : PlainGoesOn block indent (posAfter m' (w ++ p)).column t) :
      InPlain block indent m s (posAfter m' (w ++ p)) t

/-- `PlainJam lazy block indent m s`: so does the plain scalar `s`. -/
inductive PlainJam (lazy block : Bool) (indent : Nat) (m : MStats) (s : Str) : Prop where
  | wide {m' : MStats} {w t : Str} (h : InPlain block indent m s m' (w ++ t)) (hw : ∀ a b, w = a ++ b → ¬ PlainStops block (b ++ t)) (ht : Wide t)
  /-- A line break of more than one byte after the character that ends the scalar. -/
  | cut {m' : MStats} {w b t : Str} {x : Byte} (hl : lazy = true) (h : InPlain block indent m s m' (w ++ x :: (b ++ t)))
      (hw : PlainWord block w (x :: (b ++ t))) (hx : x < 0x80 ∧ ¬ White (x :: (b ++ t))) (hb : BreakBefore b t) (hc : ∃ y u, b = y :: u ∧ 0x80 ≤ y)

/-- `FirstLine t r`: `t` is spaces and line breaks up to `r`, with spaces only in the first line. -/
def FirstLine (t r : Str) : Prop := ∃ a q, t = spaces a ++ (q ++ r) ∧ ∀ x ∈ q, x ≠ 0x20

/-- `BlockJam lazy base s`: so does the text `s` after `|` or `>`. -/
inductive BlockJam (lazy : Bool) (base : Nat) (s : Str) : Prop where
  /-- In a comment of the first line. -/
  | comment {w bl l t : Str} {c : Chomping} {d : Option Byte} (hs : s = w ++ (bl ++ (b! '#' :: (l ++ t)))) (hw : Marks w c d)
      (hb : ∀ x ∈ bl, x = 0x20 ∨ x = 0x09) (hl : SameLine l t) (ht : Wide t)
  | wide {t u l v : Str} {c : Chomping} {d : Option Byte} {e k n : Nat} (hh : HeaderText s c d t) (hd : ∀ b ∈ d, b = b! '0')
      (hl : Lead 0 t e k n u) (hn : n = max k (base + 1)) (hu : InLines n u (l ++ v)) (hr : SameLine l v) (hv : Wide v)
  /-- An indentation is given. -/
  | digit {t : Str} {c : Chomping} {d : Byte} (hl : lazy = false) (hh : HeaderText s c (some d) t) (hd : d ≠ b! '0')
  /-- There are no lines. -/
  | empty {t r : Str} {c : Chomping} {d : Option Byte} {e k n : Nat} (hz : lazy = false) (hh : HeaderText s c d t) (hd : ∀ b ∈ d, b = b! '0')
      (hl : Lead 0 t e k n r) (hn : n ≠ max k (base + 1) ∨ r = []) (hf : FirstLine t r)
  /-- There is one line, and after its line break begins a character of more than one byte. -/
  | clip {t u l w v r : Str} {d : Option Byte} {k n m : Nat} (hz : lazy = false) (hh : HeaderText s .clip d t) (hd : ∀ b ∈ d, b = b! '0')
      (hl : Lead 0 t 0 k n u) (hn : n = max k (base + 1)) (hu : u = l ++ (w ++ v)) (hx : LinesText n u l [] m r)
      (hw : w = [0x0A] ∨ w = [0x0D]) (hv : ∃ b v', v = b :: v' ∧ 0x80 ≤ b)
  /-- There is one line, and its line break has more than one byte. -/
  | keep {t u l w v r : Str} {d : Option Byte} {k n : Nat} (hz : lazy = false) (hh : HeaderText s .keep d t) (hd : ∀ b ∈ d, b = b! '0')
      (hl : Lead 0 t 0 k n u) (hn : n = max k (base + 1)) (hu : u = l ++ (w ++ v)) (hx : LinesText n u l [] 1 r) (hw : BreakBefore w v)
      (hc : ∃ b w', w = b :: w' ∧ 0x80 ≤ b)

/-- `Jam lazy flow base indent m s`: the text `s` makes the scanner panic, at the position `m`, inside of `flow` flow collections, and in a block
collection with the indentation `base`, where the lines of a plain scalar are indented by `indent`. -/
inductive Jam (lazy : Bool) (flow base indent : Nat) (m : MStats) : Str → Prop where
  | tag {s : Str} (h : TagJam s) : Jam lazy flow base indent m s
  | directive {s : Str} (hc : m.column = 0) (h : DirectiveJam s) : Jam lazy flow base indent m s
  | quoted {s : Str} {single : Bool} (hl : lazy = false) (h : QuotedJam single s) : Jam lazy flow base indent m (quoteMark single :: s)
  | plain {s : Str} (hs : PlainSign (flow != 0) m.column s) (h : PlainJam lazy (flow == 0) indent m s) : Jam lazy flow base indent m s
  | block {s : Str} {fold : Bool} (hf : flow = 0) (h : BlockJam lazy base s) : Jam lazy flow base indent m ((if fold then b! '>' else b! '|') :: s)

/-- `JamAhead lazy flow base indent m s`: so does what is next in `s`, after white space and comments, or one of these comments. -/
def JamAhead (lazy : Bool) (flow base indent : Nat) (m : MStats) (s : Str) : Prop :=
  WideComment s ∨ ∃ n p r, s = p ++ r ∧ Skips true s n r ∧ Jam lazy flow base indent (posAfter m p) r

/-- `AsciiJam lazy base s`: so does the ASCII text `s`, in a block collection with the indentation `base`. -/
inductive AsciiJam (lazy : Bool) (base : Nat) : Str → Prop where
  | tag {s : Str} (h : TagJam s) : AsciiJam lazy base s
  | directive {s : Str} (h : DirectiveJam s) : AsciiJam lazy base s
  | code {s d t r : Str} {b : Byte} {v : Nat} (hl : lazy = false) (h : Within false s (0x5C :: b :: (d ++ t))) (hb : (b, d.length) ∈ escapeCodes)
      (hd : hexNumber d = some v) (hv : ¬ IsScalarValue v) (hr : Within false s (0x22 :: r)) : AsciiJam lazy base (0x22 :: s)
  | digit {s t : Str} {x d : Byte} {c : Chomping} (hl : lazy = false) (hx : x = b! '|' ∨ x = b! '>') (hh : HeaderText s c (some d) t) (hd : d ≠ b! '0') :
      AsciiJam lazy base (x :: s)
  | empty {s t r : Str} {x : Byte} {c : Chomping} {d : Option Byte} {e k n : Nat} (hl : lazy = false) (hx : x = b! '|' ∨ x = b! '>')
      (hh : HeaderText s c d t) (hd : ∀ b ∈ d, b = b! '0') (ht : Lead 0 t e k n r) (hn : n ≠ max k (base + 1) ∨ r = []) (hf : FirstLine t r) :
      AsciiJam lazy base (x :: s)

end Yary.Spec
