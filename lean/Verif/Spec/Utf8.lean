import Verif.Model.Basic

/-! # Characters

Lean's `Char` is a Unicode scalar value, and `String.utf8EncodeChar` of Lean's own library is its
UTF-8 encoding; the bytes of the model are natural numbers. -/

namespace Yary.Spec

/-- The UTF-8 encoding of a character. -/
def utf8Char (c : Char) : Str := (String.utf8EncodeChar c).map UInt8.toNat

/-- The UTF-8 encoding of a text. -/
def utf8 (l : List Char) : Str := l.flatMap utf8Char

end Yary.Spec
