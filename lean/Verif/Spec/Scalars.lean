import Verif.Spec.Position
import Verif.Spec.Text
import Verif.Spec.Utf8

/-! # Names, numbers, tags and scalars

What the text of an anchor, a version, a tag or a scalar denotes. -/

namespace Yary.Spec

/-- An ASCII letter or digit. -/
def IsAlnum (b : Byte) : Prop := ∃ c : Char, c.isAlphanum = true ∧ c.toNat = b

/-- An ASCII digit. -/
def IsDigit (b : Byte) : Prop := ∃ c : Char, c.isDigit = true ∧ c.toNat = b

/-- What may follow the name of an anchor. -/
def afterAnchor : Str := bytes! " \n?,]}%@`"

/-- The number a decimal numeral denotes. -/
def decimal (s : Str) : Nat := s.foldl (fun v b => 10 * v + (b - 0x30)) 0

/-- The characters of a tag that stand for themselves. -/
def IsUriByte (verbatim : Bool) (b : Byte) : Prop :=
  IsAlnum b ∨ b ∈ bytes! "!$&'()*+-./:;=?@_~" ∨ (verbatim = true ∧ b ∈ bytes! ",[]")

/-- `PercentDecode verbatim s u`: the text `s` consists of characters that may stand in a tag
and of `%XX`, and replacing each `%XX` by the byte it denotes gives `u`. -/
inductive PercentDecode (verbatim : Bool) : Str → Str → Prop where
  | nil : PercentDecode verbatim [] []
  | byte {b : Byte} {s u : Str} (hb : IsUriByte verbatim b) (h : PercentDecode verbatim s u) :
      PercentDecode verbatim (b :: s) (b :: u)
  | percent {x y : Byte} {v : Nat} {s u : Str} (hx : hexNumber [x, y] = some v) (h : PercentDecode verbatim s u) :
      PercentDecode verbatim (b! '%' :: x :: y :: s) (v :: u)

/-- `HandleAt h s`: of the tag `h ++ s`, the handle is `h`. It is `!name!`, the name possibly empty, and
`!` if there is none of these. -/
inductive HandleAt : Str → Str → Prop where
  | named {name s : Str} (hn : ∀ b ∈ name, IsAlnum b) : HandleAt (b! '!' :: (name ++ [b! '!'])) s
  | primary {s : Str} (h : ∀ name t, (∀ b ∈ name, IsAlnum b) → s ≠ name ++ b! '!' :: t) : HandleAt [b! '!'] s

/-- No tag goes on here. -/
def UriEnds (verbatim : Bool) (s : Str) : Prop := ∃ b t, s = b :: t ∧ ¬ IsUriByte verbatim b ∧ b ≠ b! '%'

/-- White space is next. -/
def White (s : Str) : Prop := (∃ t, s = 0x20 :: t ∨ s = 0x09 :: t) ∨ AtBreak s

/-- `AnchorText s tok r`: `s` is an anchor or an alias, with the token `tok`, and then `r`. -/
inductive AnchorText : Str → Token → Str → Prop where
  | anchor {name r t : Str} {b : Byte} (hne : name ≠ []) (hn : ∀ b ∈ name, IsAlnum b) (hr : r = b :: t) (hb : b ∈ afterAnchor) :
      AnchorText (b! '&' :: (name ++ r)) (.Anchor name) r
  | alias {name r t : Str} {b : Byte} (hne : name ≠ []) (hn : ∀ b ∈ name, IsAlnum b) (hr : r = b :: t) (hb : b ∈ afterAnchor) :
      AnchorText (b! '*' :: (name ++ r)) (.Alias name) r

/-- `TagText s tok r`: `s` is a tag, other than a verbatim one, with the token `tok`, and then `r`. -/
inductive TagText : Str → Token → Str → Prop where
  | tag {h w r : Str} {suffix : List Char} (hh : HandleAt h (w ++ r)) (hv : ∀ s, h ++ (w ++ r) ≠ b! '!' :: b! '<' :: s)
      (hd : PercentDecode false w (utf8 suffix)) (hr : UriEnds false r) : TagText (h ++ (w ++ r)) (.Tag h (utf8 suffix)) r

/-- `DirectiveText s tok r`: `s` is a directive, with the token `tok`, and then `r`. -/
inductive DirectiveText : Str → Token → Str → Prop where
  | version {s d e r : Str} {n : Nat} (hs : Skips false s n (d ++ b! '.' :: (e ++ r))) (hd : ∀ b ∈ d, IsDigit b) (he : ∀ b ∈ e, IsDigit b)
      (hdn : d ≠ []) (hen : e ≠ []) (hr : ∀ b t, r = b :: t → ¬ IsDigit b) (hd' : decimal d ≤ 255) (he' : decimal e ≤ 255) :
      DirectiveText (bytes! "%YAML" ++ s) (.VersionDirective (decimal d) (decimal e)) r
  | tag {s s' h w r : Str} {n n' : Nat} {pfx : List Char} (hs : Skips false s n (h ++ s')) (hh : HandleAt h s')
      (hb : ∃ t, s' = 0x20 :: t ∨ s' = 0x09 :: t) (hs' : Skips false s' n' (w ++ r)) (hd : PercentDecode false w (utf8 pfx))
      (hr : White r) : DirectiveText (bytes! "%TAG" ++ s) (.TagDirective h (utf8 pfx)) r

/-- The escapes with one letter after the backslash. -/
def escapeLetters : List (Byte × Nat) :=
  [(b! '0', 0x0), (b! 'a', 0x7), (b! 'b', 0x8), (b! 't', 0x9), (0x09, 0x9), (b! 'n', 0xA), (b! 'v', 0xB), (b! 'f', 0xC),
    (b! 'r', 0xD), (b! 'e', 0x1B), (b! ' ', 0x20), (b! '"', 0x22), (b! '/', 0x2F), (0x5C, 0x5C), (b! 'N', 0x85),
    (b! '_', 0xA0), (b! 'L', 0x2028), (b! 'P', 0x2029)]

/-- The escapes with hexadecimal digits, and how many. -/
def escapeCodes : List (Byte × Nat) := [(b! 'x', 2), (b! 'u', 4), (b! 'U', 8)]

/-- `Escape e c`: a backslash and then `e` denote the character `c`. -/
inductive Escape : Str → Char → Prop where
  | letter {b : Byte} {c : Char} (h : (b, c.toNat) ∈ escapeLetters) : Escape [b] c
  | code {b : Byte} {d : Str} {c : Char} (h : (b, d.length) ∈ escapeCodes) (hd : hexNumber d = some c.toNat) :
      Escape (b :: d) c

/-- The quote of the two kinds of quoted scalars. -/
def quoteMark (single : Bool) : Byte := if single then 0x27 else 0x22

/-- What `n + 1` line breaks, and the blanks around them, are folded into. -/
def folded (n : Nat) : Str := if n = 0 then [0x20] else List.replicate n 0x0A

/-- A document marker is next: `---` or `...`, and then white space or the end. -/
def AtMarker (s : Str) : Prop :=
  ∃ u, (s = bytes! "---" ++ u ∨ s = bytes! "..." ++ u) ∧ (u = [] ∨ (∃ t, u = 0x20 :: t ∨ u = 0x09 :: t) ∨ AtBreak u)

/-- `Marked s t`: the white space `s` starts with ends with a line break, and in the line it begins,
the text `t` after the white space is a document marker. -/
def Marked (s t : Str) : Prop := AtMarker t ∧ ∃ p b, s = p ++ b :: t ∧ b ≠ 0x20 ∧ b ≠ 0x09

/-- `Quoted single s v r`: after an opening quote, `s` is the contents of a quoted scalar with the
value `v`, its closing quote, and then `r`. -/
inductive Quoted (single : Bool) : Str → Str → Str → Prop where
  /-- The closing quote; two single quotes are none. -/
  | close {r : Str} (h : single = true → ∀ t, r ≠ 0x27 :: t) : Quoted single (quoteMark single :: r) [] r
  /-- A character that stands for itself. -/
  | char {b : Byte} {t v r : Str} (hb : b ≠ 0x20 ∧ b ≠ 0x09 ∧ ¬ AtBreak (b :: t)) (hq : b ≠ quoteMark single)
      (he : single = false → b ≠ 0x5C) (h : Quoted single t v r) : Quoted single (b :: t) (b :: v) r
  /-- Blanks, without a line break after them, stand for themselves. -/
  | blank {b : Byte} {t u v r : Str} (hb : b = 0x20 ∨ b = 0x09) (hs : Skips false t 0 u)
      (h : Quoted single t v r) : Quoted single (b :: t) (b :: v) r
  /-- Line breaks, and the blanks around them, are folded. There must be no document marker after them. -/
  | fold {s t v r : Str} {n : Nat} (hs : Skips false s (n + 1) t) (hm : ¬ Marked s t) (h : Quoted single t v r) :
      Quoted single s (folded n ++ v) r
  /-- Two single quotes stand for one. -/
  | quote {t v r : Str} (hs : single = true) (h : Quoted single t v r) :
      Quoted single (0x27 :: 0x27 :: t) (0x27 :: v) r
  /-- An escape. -/
  | escape {e t v r : Str} {c : Char} (hs : single = false) (he : Escape e c) (h : Quoted single t v r) :
      Quoted single (0x5C :: (e ++ t)) (utf8Char c ++ v) r
  /-- An escaped line break, with the blanks and line breaks after it: it is left out, the others stay. -/
  | join {s t v r : Str} {n : Nat} (hs : single = false) (hb : AtBreak s) (hk : Skips false s (n + 1) t) (hm : ¬ Marked s t)
      (h : Quoted single t v r) : Quoted single (0x5C :: s) (List.replicate n 0x0A ++ v) r

/-- The text `s` is ASCII up to `r`, and `r` is UTF-8. -/
def AsciiTo (s r : Str) : Prop := (∃ p, s = p ++ r ∧ ∀ b ∈ p, b < 128) ∧ ∃ rest, r = utf8 rest

/-- The style of a quoted scalar. -/
def quoteStyle (single : Bool) : ScalarStyle := if single then .SingleQuote else .DoubleQuote

/-- In single quotes each quote is written twice. -/
def doubled (s : Str) : Str := s.flatMap fun b => if b = 0x27 then [0x27, 0x27] else [b]

/-- `IsPiece w c`: in double quotes, `w` stands for the character `c`: it is an escape, or `c` itself, which is
ASCII, no control character but a tab, no quote and no backslash. -/
def IsPiece (w : Str) (c : Char) : Prop :=
  (∃ e, w = 0x5C :: e ∧ Escape e c) ∨
    w = [c.toNat] ∧ (c = '\t' ∨ 0x20 ≤ c.toNat ∧ c.toNat < 0x7F) ∧ c ≠ '"' ∧ c ≠ '\\'

/-- The text of pieces. -/
def piecesText (ps : List (Str × Char)) : Str := (ps.map (·.1)).flatten

/-- A plain scalar, or a word of it, ends here: with the text, at white space, at `:` before white space or
before the end, and, in the flow context, at an indicator of flow collections. -/
def PlainStops (block : Bool) (s : Str) : Prop :=
  s = [] ∨ White s ∨ (∃ t, s = b! ':' :: t ∧ (t = [] ∨ White t)) ∨ (block = false ∧ ∃ b t, s = b :: t ∧ b ∈ bytes! ",[]{}")

/-- `PlainWord block w t`: of the text `w ++ t`, the first word of a plain scalar is `w`. -/
def PlainWord (block : Bool) (w t : Str) : Prop :=
  w ≠ [] ∧ (∀ a b, w = a ++ b → b ≠ [] → ¬ PlainStops block (b ++ t)) ∧ PlainStops block t

/-- A plain scalar goes on with the text `s`, in the given column, after white space: it has at least the
indent, it is no document marker, no comment, and no end. -/
def PlainGoesOn (block : Bool) (indent column : Nat) (s : Str) : Prop :=
  (block = true → indent ≤ column) ∧ ¬ (column = 0 ∧ AtMarker s) ∧ (∀ t, s ≠ b! '#' :: t) ∧ ¬ PlainStops block s

/-- What stands for the white space `p`, with `n` line breaks in it, between two words: itself, unless
there is a line break. -/
def plainBetween (n : Nat) (p : Str) : Str := if n = 0 then p else folded (n - 1)

/-- `PlainText block indent m s v r`: at the position `m`, `s` is a plain scalar with the value `v`, and
then `r`: words, with white space between them. -/
inductive PlainText (block : Bool) (indent : Nat) : MStats → Str → Str → Str → Prop where
  | last {m : MStats} {w p t : Str} {n : Nat} (hw : PlainWord block w (p ++ t)) (hs : Skips false (p ++ t) n t)
      (hn : ¬ PlainGoesOn block indent (posAfter m (w ++ p)).column t) : PlainText block indent m (w ++ (p ++ t)) w (p ++ t)
  | more {m : MStats} {w p t v r : Str} {n : Nat} (hw : PlainWord block w (p ++ t)) (hs : Skips false (p ++ t) n t)
      (hg : PlainGoesOn block indent (posAfter m (w ++ p)).column t) (h : PlainText block indent (posAfter m (w ++ p)) t v r) :
      PlainText block indent m (w ++ (p ++ t)) (w ++ (plainBetween n p ++ v)) r

/-- What a plain scalar may begin with, in whatever context: no indicator, or `-` before something else than white
space and indicators of flow collections. -/
def PlainBegins (s : Str) : Prop :=
  ¬ AtMarker s ∧ ((∃ b t, s = b :: t ∧ b ∉ bytes! "-?:,[]{}#&*!|>'\"%@`" ∧ 0x20 < b ∧ b < 0x7F) ∨
    ∃ b t, s = b! '-' :: b :: t ∧ b ∉ bytes! ",[]{}" ∧ 0x20 < b ∧ b < 0x7F)

end Yary.Spec
