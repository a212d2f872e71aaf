import Verif.Model.Basic

/-! # Texts

Hexadecimal numbers, and the texts without the escapes the scanner cannot decode. A byte is a
number below 256. -/

namespace Yary.Spec

/-- The value of a hexadecimal digit, in ASCII. -/
def hexDigit (b : Byte) : Option Nat :=
  if 0x30 ≤ b ∧ b ≤ 0x39 then some (b - 0x30)
  else if 0x41 ≤ b ∧ b ≤ 0x46 then some (b - 0x41 + 10)
  else if 0x61 ≤ b ∧ b ≤ 0x66 then some (b - 0x61 + 10)
  else none

/-- The value of hexadecimal digits that follow digits with the value `v`. -/
def hexFrom (v : Nat) : Str → Option Nat
  | [] => some v
  | b :: t => match hexDigit b with
    | some d => hexFrom (v * 16 + d) t
    | none => none

/-- The value of a hexadecimal number. -/
def hexNumber (s : Str) : Option Nat := hexFrom 0 s

/-- The Unicode scalar values: the code points but the surrogates. -/
def IsScalarValue (v : Nat) : Prop := v < 0xD800 ∨ (0xDFFF < v ∧ v < 0x110000)

/-- Every `\uXXXX` and `\UXXXXXXXX` in the text denotes a Unicode scalar value. -/
def CodesOk (s : Str) : Prop := ∀ p d t v,
  (s = p ++ 0x5C :: 0x75 :: (d ++ t) ∧ d.length = 4 ∨
    s = p ++ 0x5C :: 0x55 :: (d ++ t) ∧ d.length = 8) →
  hexNumber d = some v → IsScalarValue v

/-- Every `%XX` in the text denotes an ASCII character. -/
def PercentsOk (s : Str) : Prop := ∀ p a b t v,
  s = p ++ 0x25 :: a :: b :: t → hexNumber [a, b] = some v → v < 128

end Yary.Spec
