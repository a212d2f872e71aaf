import Verif.Spec.Text
import Verif.Spec.Utf8
import Verif.Spec.Content
import Verif.Model.Event

/-!
# JSON texts and their events

The grammar of JSON (RFC 8259) and the events each text stands for. Three things are narrower than
in JSON: all characters are ASCII and printable (others are written as escapes, but for those outside of
the basic multilingual plane), the `:` after a key is in the line of the key, and a key is at most 1022 bytes long, with
the blanks after it.

Kinds of nodes, styles of scalars and the events themselves are those of the library
(`Model/Event`). -/

namespace Yary.Spec

/-- White space. -/
def JsonSpace (w : Str) : Prop := ∀ b ∈ w, b = 0x20 ∨ b = 0x09 ∨ b = 0x0A ∨ b = 0x0D

/-- White space within a line. -/
def JsonBlank (w : Str) : Prop := ∀ b ∈ w, b = 0x20 ∨ b = 0x09

/-- The escapes with one letter. -/
def jsonEscapes : List (Byte × Char) :=
  [(b! '"', '"'), (0x5C, '\\'), (b! '/', '/'), (b! 'b', '\x08'), (b! 'f', '\x0C'), (b! 'n', '\n'), (b! 'r', '\r'), (b! 't', '\t')]

/-- `JsonChar w c`: in a string, `w` stands for the character `c`. -/
inductive JsonChar : Str → Char → Prop where
  | self {c : Char} (h : 0x20 ≤ c.toNat ∧ c.toNat < 0x7F) (hq : c ≠ '"') (hb : c ≠ '\\') : JsonChar [c.toNat] c
  | letter {b : Byte} {c : Char} (h : (b, c) ∈ jsonEscapes) : JsonChar [0x5C, b] c
  | code {d : Str} {c : Char} (hl : d.length = 4) (h : hexNumber d = some c.toNat) : JsonChar (0x5C :: b! 'u' :: d) c

/-- `JsonString w cs`: between quotes, `w` stands for the characters `cs`. -/
inductive JsonString : Str → List Char → Prop where
  | nil : JsonString [] []
  | cons {w w' : Str} {c : Char} {cs : List Char} (h : JsonChar w c) (t : JsonString w' cs) : JsonString (w ++ w') (c :: cs)

/-- A digit. -/
def JsonDigit (b : Byte) : Prop := b! '0' ≤ b ∧ b ≤ b! '9'

/-- Digits, at least one. -/
def JsonDigits (w : Str) : Prop := w ≠ [] ∧ ∀ b ∈ w, JsonDigit b

/-- The integer part of a number: `0`, or digits that do not begin with it. -/
def JsonInt (w : Str) : Prop := w = bytes! "0" ∨ JsonDigits w ∧ ∀ t, w ≠ b! '0' :: t

/-- The fraction, or nothing. -/
def JsonFraction (w : Str) : Prop := w = [] ∨ ∃ d, w = b! '.' :: d ∧ JsonDigits d

/-- The exponent, or nothing. -/
def JsonExponent (w : Str) : Prop :=
  w = [] ∨ ∃ e s d, w = e :: (s ++ d) ∧ (e = b! 'e' ∨ e = b! 'E') ∧ (s = [] ∨ s = bytes! "+" ∨ s = bytes! "-") ∧ JsonDigits d

/-- A number. -/
inductive JsonNumber : Str → Prop where
  | mk {s i f e : Str} (hs : s = [] ∨ s = bytes! "-") (hi : JsonInt i) (hf : JsonFraction f) (he : JsonExponent e) : JsonNumber (s ++ (i ++ (f ++ e)))

/-- `null`, `true`, `false` or a number. -/
def JsonWord (w : Str) : Prop := w = bytes! "null" ∨ w = bytes! "true" ∨ w = bytes! "false" ∨ JsonNumber w

/-- The event of a string. -/
def jsonString (kind : NodeKind) (cs : List Char) : EventData :=
  .Scalar { anchor := none, tag := none, kind } (.Eager { data := utf8 cs, style := .DoubleQuote })

/-- The event of a word. -/
def jsonWord (kind : NodeKind) (w : Str) : EventData :=
  .Scalar { anchor := none, tag := none, kind } (.Eager { data := w, style := .Plain })

mutual

/-- `JsonValue kind w es`: `w` is a value, as a node of the given kind, with the events `es`. -/
inductive JsonValue : NodeKind → Str → List EventData → Prop where
  | word {kind : NodeKind} {w : Str} (h : JsonWord w) : JsonValue kind w [jsonWord kind w]
  | string {kind : NodeKind} {w : Str} {cs : List Char} (h : JsonString w cs) : JsonValue kind (b! '"' :: (w ++ [b! '"'])) [jsonString kind cs]
  | emptyArray {kind : NodeKind} {a : Str} (ha : JsonSpace a) :
      JsonValue kind (b! '[' :: (a ++ [b! ']'])) [.SequenceStart { anchor := none, tag := none, kind }, .SequenceEnd]
  | array {kind : NodeKind} {w : Str} {es : List EventData} (h : JsonElements w es) :
      JsonValue kind (b! '[' :: (w ++ [b! ']'])) (.SequenceStart { anchor := none, tag := none, kind } :: (es ++ [.SequenceEnd]))
  | emptyObject {kind : NodeKind} {a : Str} (ha : JsonSpace a) :
      JsonValue kind (b! '{' :: (a ++ [b! '}'])) [.MappingStart { anchor := none, tag := none, kind }, .MappingEnd]
  | object {kind : NodeKind} {w : Str} {es : List EventData} (h : JsonMembers w es) :
      JsonValue kind (b! '{' :: (w ++ [b! '}'])) (.MappingStart { anchor := none, tag := none, kind } :: (es ++ [.MappingEnd]))

/-- The elements of an array, with white space around them and `,` in between. -/
inductive JsonElements : Str → List EventData → Prop where
  | one {a w b : Str} {es : List EventData} (ha : JsonSpace a) (h : JsonValue .Entry w es) (hb : JsonSpace b) : JsonElements (a ++ (w ++ b)) es
  | more {a w b w' : Str} {es es' : List EventData} (ha : JsonSpace a) (h : JsonValue .Entry w es) (hb : JsonSpace b) (t : JsonElements w' es') :
      JsonElements (a ++ (w ++ (b ++ b! ',' :: w'))) (es ++ es')

/-- The members of an object. -/
inductive JsonMembers : Str → List EventData → Prop where
  | one {w : Str} {es : List EventData} (h : JsonMember w es) : JsonMembers w es
  | more {w w' : Str} {es es' : List EventData} (h : JsonMember w es) (t : JsonMembers w' es') : JsonMembers (w ++ b! ',' :: w') (es ++ es')

/-- A member, with the white space around it. -/
inductive JsonMember : Str → List EventData → Prop where
  | mk {a k b c w d : Str} {cs : List Char} {es : List EventData} (ha : JsonSpace a) (hk : JsonString k cs) (hb : JsonBlank b)
      (hl : k.length + b.length ≤ 1022) (hc : JsonSpace c) (h : JsonValue .Value w es) (hd : JsonSpace d) :
      JsonMember (a ++ b! '"' :: (k ++ b! '"' :: (b ++ b! ':' :: (c ++ (w ++ d))))) (jsonString .Key cs :: es)

end

/-- A whole text. -/
inductive JsonText : Str → List EventData → Prop where
  | mk {a w b : Str} {es : List EventData} (ha : JsonSpace a) (h : JsonValue .Root w es) (hb : JsonSpace b) : JsonText (a ++ (w ++ b)) es

/-- The events of a text with the value `es`. -/
def jsonStream (es : List EventData) : List EventData :=
  .StreamStart .UTF8 :: .DocumentStart { version := { major := 1, minor := 2 }, tags := knownTags } true ::
    (es ++ [.DocumentEnd true, .StreamEnd])

end Yary.Spec
