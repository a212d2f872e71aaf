import Verif.Spec.Tokens

/-! # Scalars evaluated later -/

namespace Yary.Spec

/-- The elements of two lists are related one by one. -/
inductive Pairs {α β : Type} (R : α → β → Prop) : List α → List β → Prop where
  | nil : Pairs R [] []
  | cons {a : α} {b : β} {l : List α} {l' : List β} (h : R a b) (t : Pairs R l l') : Pairs R (a :: l) (b :: l')

/-- The token there is, or what evaluating the scalar gives. -/
def valueOf : MaybeToken → Out ScanError Token
  | .Token t => .ok t
  | .Deferred l => l.intoToken

/-- At the same position there is a token, or a scalar which evaluates to it. -/
def SameValue (e e' : TokenEntry) : Prop := e'.readAt = e.readAt ∧ ∃ t, valueOf e.wrap = .ok t ∧ valueOf e'.wrap = .ok t

/-- The same, or a block scalar which evaluates to what lacks a final line break. -/
def CloseValue (e e' : TokenEntry) : Prop := SameValue e e' ∨ e'.readAt = e.readAt ∧ ∃ v b style,
  (style = .Literal ∨ style = .Folded) ∧ (b = 0x0A ∨ b = 0x0D) ∧
  valueOf e.wrap = .ok (.Scalar (v ++ [b]) style) ∧ valueOf e'.wrap = .ok (.Scalar v style)

/-- The same entry; or block scalars of the same text at the same position, of which the first, and not the second, may have
been told that the text goes on: evaluating the first then asks for more text, or gives what evaluating the second gives. -/
def SameLater (e e' : TokenEntry) : Prop := e' = e ∨ e'.readAt = e.readAt ∧ ∃ o s st i f,
  e.wrap = .Deferred (.block o s st i f) ∧ e'.wrap = .Deferred (.block { o with extendable := false } s st i f) ∧
  (valueOf e.wrap = .err .Extend ∨ valueOf e'.wrap = valueOf e.wrap)

/-- Until the first history reports something other than a token or the end, the second reports related tokens, and the end when
the first does. -/
inductive Tracks (R : TokenEntry → TokenEntry → Prop) : List (ROp × Out ReaderError (Option TokenEntry)) →
    List (ROp × Out ReaderError (Option TokenEntry)) → Prop where
  | nil : Tracks R [] []
  | token {op : ROp} {e e' : TokenEntry} {h h'} (he : R e e') (rest : Tracks R h h') :
      Tracks R ((op, .ok (some e)) :: h) ((op, .ok (some e')) :: h')
  | none {op : ROp} {h h'} (rest : Tracks R h h') : Tracks R ((op, .ok none) :: h) ((op, .ok none) :: h')
  | fails {op : ROp} {x y : Out ReaderError (Option TokenEntry)} {h h'} (hx : ∀ t, x ≠ .ok t) : Tracks R ((op, x) :: h) ((op, y) :: h')

/-- No backslash is escaped by another before a double quote. -/
def NoEscapedBackslash (text : List Char) : Prop := ∀ p r, text ≠ p ++ '\\' :: '\\' :: '"' :: r

/-- All line breaks are CR LF, CR or LF. -/
def PlainBreaks (text : List Char) : Prop := ∀ c ∈ text, c ≠ Char.ofNat 0x85 ∧ c ≠ Char.ofNat 0x2028 ∧ c ≠ Char.ofNat 0x2029

/-- What could be the indicator of a block scalar is followed by what to do with its final line breaks. -/
def Chomped (text : List Char) : Prop := ∀ p c r, text = p ++ c :: r → c = '|' ∨ c = '>' → ∃ r', r = '+' :: r' ∨ r = '-' :: r'

end Yary.Spec
