import Verif.Spec.BlockForm
import Verif.Spec.Places
import Verif.Spec.Signs

/-! # What is wrong with a text

For each of the scanner's errors, the texts it stands for. -/

namespace Yary.Spec

/-- `UriFault verbatim e s`: the error `e` is what is wrong with the text `s` of a tag. -/
inductive UriFault (verbatim : Bool) : ScanError → Str → Prop where
  /-- The text ends before the tag does, or in a `%XX`, or where another one must follow. -/
  | ends {w u q : Str} (hw : PercentDecode verbatim w u)
      (hq : q = [] ∨ q.length < 3 ∧ ((∃ t, q = b! '%' :: t) ∨ ¬ ∃ l, u = utf8 l)) : UriFault verbatim .UnexpectedEOF (w ++ q)
  /-- A `%` without two hexadecimal digits, or another character where a `%XX` must follow. -/
  | escape {w u q : Str} (hw : PercentDecode verbatim w u) (hq : 3 ≤ q.length) (hc : (∃ t, q = b! '%' :: t) ∨ ¬ ∃ l, u = utf8 l)
      (hx : ∀ x y t, q = b! '%' :: x :: y :: t → hexNumber [x, y] = none) : UriFault verbatim .UnknownEscape (w ++ q)
  /-- Bytes that no text begins with. -/
  | bytes {w u q : Str} (hw : PercentDecode verbatim w u) (hu : ∀ v l, u ++ v ≠ utf8 l) : UriFault verbatim .UnknownEscape (w ++ q)

/-- `TagFault e s`: the error `e` is what is wrong with the tag `s`. -/
inductive TagFault : ScanError → Str → Prop where
  | verbatim {e : ScanError} {s : Str} (h : UriFault true e s) : TagFault e (bytes! "!<" ++ s)
  /-- The text ends one character after what is taken as the tag. -/
  | verbatimEnds {w u : Str} {b : Byte} (hw : PercentDecode true w u) (hb : UriEnds true [b]) : TagFault .UnexpectedEOF (bytes! "!<" ++ (w ++ [b]))
  /-- The second character after what is taken as the tag is no `>`. -/
  | verbatimClose {w u t : Str} {b x : Byte} (hw : PercentDecode true w u) (hb : UriEnds true (b :: x :: t)) (hx : x ≠ b! '>') :
      TagFault .InvalidTagSuffix (bytes! "!<" ++ (w ++ b :: x :: t))
  | suffix {e : ScanError} {h s : Str} (hh : HandleAt h s) (hv : ∀ t, h ++ s ≠ bytes! "!<" ++ t) (hs : UriFault false e s) : TagFault e (h ++ s)

/-- `AnchorFault e s`: the error `e` is what is wrong with the anchor or the alias `s`. -/
inductive AnchorFault : ScanError → Str → Prop where
  | empty {b : Byte} {r : Str} (hb : b = b! '&' ∨ b = b! '*') (hr : ∀ x t, r = x :: t → ¬ IsAlnum x) : AnchorFault .InvalidAnchorName (b :: r)
  | after {b x : Byte} {name t : Str} (hb : b = b! '&' ∨ b = b! '*') (hn : ∀ b ∈ name, IsAlnum b) (hx : ¬ IsAlnum x) (ha : x ∉ afterAnchor) :
      AnchorFault .InvalidAnchorName (b :: (name ++ x :: t))
  | ends {b : Byte} {name : Str} (hb : b = b! '&' ∨ b = b! '*') (hne : name ≠ []) (hn : ∀ b ∈ name, IsAlnum b) :
      AnchorFault .UnexpectedEOF (b :: name)

/-- A number of a version. -/
def VersionNumber (d : Str) : Prop := (∀ b ∈ d, IsDigit b) ∧ d ≠ [] ∧ decimal d ≤ 255

/-- `r` does not start with a digit. -/
def NoDigit (r : Str) : Prop := ∀ b t, r = b :: t → ¬ IsDigit b

/-- `DirectiveFault e s`: the error `e` is what is wrong with the directive `s`. -/
inductive DirectiveFault : ScanError → Str → Prop where
  | unknown {s : Str} (h1 : ∀ t, s ≠ bytes! "YAML" ++ t) (h2 : ∀ t, s ≠ bytes! "TAG" ++ t) : DirectiveFault .UnknownDirective (b! '%' :: s)
  /-- No number. -/
  | major {s d r : Str} {n : Nat} (hs : Skips false s n (d ++ r)) (hd : ∀ b ∈ d, IsDigit b) (hr : NoDigit r) (h : ¬ VersionNumber d) :
      DirectiveFault .InvalidVersion (bytes! "%YAML" ++ s)
  /-- No dot. -/
  | dot {s d t : Str} {n : Nat} {x : Byte} (hs : Skips false s n (d ++ x :: t)) (hd : VersionNumber d) (hr : ¬ IsDigit x) (h : x ≠ b! '.') :
      DirectiveFault .InvalidVersion (bytes! "%YAML" ++ s)
  | minor {s d e r : Str} {n : Nat} (hs : Skips false s n (d ++ b! '.' :: (e ++ r))) (hd : VersionNumber d) (he : ∀ b ∈ e, IsDigit b)
      (hr : NoDigit r) (h : ¬ VersionNumber e) : DirectiveFault .InvalidVersion (bytes! "%YAML" ++ s)
  | versionEnds {s d : Str} {n : Nat} (hs : Skips false s n d) (hd : VersionNumber d) : DirectiveFault .UnexpectedEOF (bytes! "%YAML" ++ s)
  /-- No handle. -/
  | handle {s t : Str} {n : Nat} {x : Byte} (hs : Skips false s n (x :: t)) (hx : x ≠ b! '!') : DirectiveFault .InvalidTagHandle (bytes! "%TAG" ++ s)
  /-- A handle that does not end with a `!`. -/
  | handleOpen {s name t : Str} {n : Nat} {x : Byte} (hs : Skips false s n (b! '!' :: (name ++ x :: t))) (hn : ∀ b ∈ name, IsAlnum b)
      (hx : ¬ IsAlnum x) (hx' : x ≠ b! '!') (h : name ≠ [] ∨ ¬ White (x :: t)) : DirectiveFault .InvalidTagHandle (bytes! "%TAG" ++ s)
  | handleEnds {s r : Str} {n : Nat} (hs : Skips false s n r) (h : r = [] ∨ ∃ name, r = b! '!' :: name ∧ ∀ b ∈ name, IsAlnum b) :
      DirectiveFault .UnexpectedEOF (bytes! "%TAG" ++ s)
  /-- No blank after the handle. -/
  | blank {s h t : Str} {n : Nat} {x : Byte} (hs : Skips false s n (h ++ x :: t)) (hh : HandleAt h (x :: t)) (hw : h = [b! '!'] → White (x :: t))
      (hx : x ≠ 0x20 ∧ x ≠ 0x09) : DirectiveFault .InvalidTagPrefix (bytes! "%TAG" ++ s)
  | blankEnds {s h : Str} {n : Nat} (hs : Skips false s n h) (hh : HandleAt h []) : DirectiveFault .UnexpectedEOF (bytes! "%TAG" ++ s)
  | uri {e : ScanError} {s h s' r : Str} {n n' : Nat} (hs : Skips false s n (h ++ s')) (hh : HandleAt h s')
      (hb : ∃ t, s' = 0x20 :: t ∨ s' = 0x09 :: t) (hs' : Skips false s' n' r) (he : UriFault false e r) : DirectiveFault e (bytes! "%TAG" ++ s)
  /-- No white space after the prefix. -/
  | prefix {s h s' w u r : Str} {n n' : Nat} (hs : Skips false s n (h ++ s')) (hh : HandleAt h s')
      (hb : ∃ t, s' = 0x20 :: t ∨ s' = 0x09 :: t) (hs' : Skips false s' n' (w ++ r)) (hw : PercentDecode false w u) (hr : UriEnds false r)
      (h : ¬ White r) : DirectiveFault .InvalidTagPrefix (bytes! "%TAG" ++ s)

/-- What may follow a backslash: a letter, or a letter and hexadecimal digits, whatever character they denote. -/
inductive EscapeForm : Str → Prop where
  | letter {b : Byte} {v : Nat} (h : (b, v) ∈ escapeLetters) : EscapeForm [b]
  | code {b : Byte} {d : Str} {v : Nat} (h : (b, d.length) ∈ escapeCodes) (hd : hexNumber d = some v) : EscapeForm (b :: d)

/-- `Within single s t`: after an opening quote, `s` is a part of the contents of a quoted scalar, and then `t`. -/
inductive Within (single : Bool) (s : Str) : Str → Prop where
  | start : Within single s s
  /-- A character that stands for itself. -/
  | char {b : Byte} {t : Str} (h : Within single s (b :: t)) (hb : b ≠ 0x20 ∧ b ≠ 0x09 ∧ ¬ AtBreak (b :: t)) (hq : b ≠ quoteMark single)
      (he : single = false → b ≠ 0x5C) : Within single s t
  /-- A blank, without a line break after it. -/
  | blank {b : Byte} {t u : Str} (h : Within single s (b :: t)) (hb : b = 0x20 ∨ b = 0x09) (hs : Skips false t 0 u) : Within single s t
  /-- Line breaks and the blanks around them, without a document marker after them. -/
  | fold {t u : Str} {n : Nat} (h : Within single s t) (hs : Skips false t (n + 1) u) (hm : ¬ Marked t u) : Within single s u
  /-- Two single quotes. -/
  | quote {t : Str} (h : Within single s (0x27 :: 0x27 :: t)) (hs : single = true) : Within single s t
  /-- An escape. -/
  | escape {e t : Str} (h : Within single s (0x5C :: (e ++ t))) (hs : single = false) (he : EscapeForm e) : Within single s t
  /-- An escaped line break. -/
  | join {t u : Str} {n : Nat} (h : Within single s (0x5C :: t)) (hs : single = false) (hb : AtBreak t) (hk : Skips false t (n + 1) u)
      (hm : ¬ Marked t u) : Within single s u

/-- `QuotedFault single e s`: the error `e` is what is wrong with the text `s` after an opening quote. -/
inductive QuotedFault (single : Bool) : ScanError → Str → Prop where
  /-- There is no closing quote. -/
  | ends {s : Str} (h : Within single s []) : QuotedFault single .UnexpectedEOF s
  /-- The text ends in an escape. -/
  | escapeEnds {s e : Str} (hs : single = false) (h : Within single s (0x5C :: e))
      (he : e = [] ∨ ∃ b n d v, e = b :: d ∧ (b, n) ∈ escapeCodes ∧ d.length < n ∧ hexNumber d = some v) : QuotedFault single .UnexpectedEOF s
  /-- There is no such escape, or it has not enough digits. -/
  | escape {s t : Str} {b : Byte} (hs : single = false) (h : Within single s (0x5C :: b :: t)) (hb : ¬ AtBreak (b :: t))
      (hl : ∀ v, (b, v) ∉ escapeLetters) (hc : ∀ n, (b, n) ∈ escapeCodes → hexNumber (t.take n) = none) : QuotedFault single .UnknownEscape s
  /-- There is a document marker. -/
  | marker {s t u : Str} {n : Nat} (h : Within single s t ∨ single = false ∧ AtBreak t ∧ Within single s (0x5C :: t))
      (hs : Skips false t (n + 1) u) (hm : Marked t u) : QuotedFault single .InvalidFlowScalar s

/-- `Unclosed single s`: a quote is missing after `s`, if no other escapes are known than that of a quote: `''` or `\"`. -/
inductive Unclosed (single : Bool) : Str → Prop where
  | ends : Unclosed single []
  | pair {t : Str} (h : Unclosed single t) : Unclosed single ((if single then 0x27 else 0x5C) :: quoteMark single :: t)
  | char {b : Byte} {t : Str} (hb : b ≠ quoteMark single) (he : single = false → b = 0x5C → ∀ u, t ≠ 0x22 :: u) (h : Unclosed single t) :
      Unclosed single (b :: t)

/-- An indicator after `|` or `>`. -/
def IsMark (b : Byte) : Prop := IsDigit b ∨ b = b! '+' ∨ b = b! '-'

/-- `SpacesTo s t`: `s` is spaces and line breaks, and then `t`. -/
inductive SpacesTo (s : Str) : Str → Prop where
  | start : SpacesTo s s
  | space {t : Str} (h : SpacesTo s (0x20 :: t)) : SpacesTo s t
  | line {w t : Str} (h : SpacesTo s (w ++ t)) (hw : BreakBefore w t) : SpacesTo s t

/-- `MarginTab n c s`: from column `c` on, there are spaces and line breaks in `s`, and then a tab before column `n`. -/
inductive MarginTab (n : Nat) : Nat → Str → Prop where
  | tab {c : Nat} {t : Str} (hc : c < n) : MarginTab n c (0x09 :: t)
  | space {c : Nat} {t : Str} (hc : c < n) (h : MarginTab n (c + 1) t) : MarginTab n c (0x20 :: t)
  | line {c : Nat} {w t : Str} (hc : c < n) (hw : BreakBefore w t) (h : MarginTab n 0 t) : MarginTab n c (w ++ t)

/-- `InLines n s t`: `s` is lines that are indented by `n`, from that column on, and then `t`, which is such a line. -/
inductive InLines (n : Nat) (s : Str) : Str → Prop where
  | start : InLines n s s
  | line {l w t t' : Str} {e : Nat} (h : InLines n s (l ++ (w ++ t))) (hl : RestOfLine l (w ++ t)) (hw : BreakBefore w t) (hm : Margin n 0 t e n t') :
      InLines n s t'

/-- `BlockFault base e s`: the error `e` is what is wrong with the text `s` after `|` or `>`, in a collection with the indentation `base`. -/
inductive BlockFault (base : Nat) : ScanError → Str → Prop where
  /-- Its first line is none. -/
  | header {s : Str} (h : ∀ c d r, ¬ HeaderText s c d r) : BlockFault base .InvalidBlockScalar s
  /-- Nor is it taken as one, if the second character is an indicator, though the first one is not. -/
  | second {t : Str} {x y : Byte} (hx : ¬ IsMark x) (hy : IsMark y) : BlockFault base .InvalidBlockScalar (x :: y :: t)
  /-- There is a tab before the first line that is not blank. -/
  | leadTab {s t r : Str} {c : Chomping} {d : Option Byte} (hh : HeaderText s c d t) (hd : ∀ b ∈ d, b = b! '0') (hg : SpacesTo t (0x09 :: r)) :
      BlockFault base .InvalidTab s
  /-- There is a tab in the indentation of another one. -/
  | lineTab {s t u l w r : Str} {c : Chomping} {d : Option Byte} {e k n : Nat} (hh : HeaderText s c d t) (hd : ∀ b ∈ d, b = b! '0')
      (hl : Lead 0 t e k n u) (hn : n = max k (base + 1)) (hu : InLines n u (l ++ (w ++ r))) (hr : RestOfLine l (w ++ r)) (hw : BreakBefore w r)
      (ht : MarginTab n 0 r) : BlockFault base .InvalidTab s

/-- `Wrong lazy flow base column place e s`: the error `e` is what is wrong with the text `s`, in this column, inside of `flow` flow collections, and
in a block collection with the indentation `base`. If `place`, a block collection or a key may begin here. -/
inductive Wrong (lazy : Bool) (flow base column : Nat) (place : Prop) : ScanError → Str → Prop where
  /-- No token begins like this. -/
  | reserved {s : Str} (h : Reserved (flow != 0) column s) : Wrong lazy flow base column place .UnknownDelimiter s
  | entry {t : Str} (ht : SignEnds t) (h : flow ≠ 0 ∨ ¬ place) : Wrong lazy flow base column place .InvalidBlockEntry (b! '-' :: t)
  | key {t : Str} (ht : SignEnds t) (hf : flow = 0) (h : ¬ place) : Wrong lazy flow base column place .InvalidKey (b! '?' :: t)
  | value {t : Str} (ht : SignEnds t) (hf : flow = 0) (h : ¬ place) : Wrong lazy flow base column place .InvalidValue (b! ':' :: t)
  /-- A flow collection that was not begun ends. -/
  | unbalanced {t : Str} {b : Byte} (hb : b = b! ']' ∨ b = b! '}') (hf : flow = 0) : Wrong lazy flow base column place .IntOverflow (b :: t)
  | anchor {e : ScanError} {s : Str} (h : AnchorFault e s) : Wrong lazy flow base column place e s
  | tag {e : ScanError} {s : Str} (h : TagFault e s) : Wrong lazy flow base column place e s
  | directive {e : ScanError} {s : Str} (hc : column = 0) (h : DirectiveFault e s) : Wrong lazy flow base column place e s
  | quoted {e : ScanError} {s : Str} {single : Bool} (hl : lazy = false) (h : QuotedFault single e s) :
      Wrong lazy flow base column place e (quoteMark single :: s)
  /-- If scalars are not read at once, a missing quote is all that is found. -/
  | unclosed {s : Str} {single : Bool} (hl : lazy = true) (h : Unclosed single s) : Wrong lazy flow base column place .UnexpectedEOF (quoteMark single :: s)
  | block {e : ScanError} {s : Str} {fold : Bool} (hf : flow = 0) (h : BlockFault base e s) :
      Wrong lazy flow base column place e ((if fold then b! '>' else b! '|') :: s)

end Yary.Spec
