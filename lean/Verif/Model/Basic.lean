/-!
# Bytes, string slices, outcomes

Shared vocabulary of the model: bytes, `&str` slices with their panics, the outcome of a
computation, and the small monads the other modules are written in.
-/

namespace Yary

/-- `u8`. Simplification: any natural number; all theorems therefore hold in particular for
lists of numbers below 256. -/
abbrev Byte := Nat

/-- `&str` / `&[u8]` / `String` / `Vec<u8>`: a list of bytes. -/
abbrev Str := List Byte

/-- `b! 'x'` is the code of the character, as a numeral (the `b'x'` literals in
`/repo/src/scanner/mod.rs:1101-1123` and elsewhere). -/
syntax:max (name := byteLit) "b!" char : term

open Lean in
macro_rules (kind := byteLit)
  | `(b! $c:char) => return Syntax.mkNumLit (toString c.getChar.toNat)

/-- `bytes! "…"` is the UTF-8 encoding of the literal as a list of numerals (Rust `"…"`). -/
syntax:max (name := bytesLit) "bytes!" str : term

open Lean in
macro_rules (kind := bytesLit)
  | `(bytes! $s:str) => do
    let xs := s.getString.toUTF8.toList.map fun b => Syntax.mkNumLit (toString b.toNat)
    let xs := xs.toArray
    `(([$xs,*] : List Nat))

/-- How a Rust computation may end: a value, an `Err(e)`, a panic (`unreachable!`, `unwrap` on
an error, slicing off a character boundary or out of range, arithmetic underflow), or not at all.
`diverge` is what a loop modelled with a fuel argument yields when the fuel runs out. -/
inductive Out (ε α : Type) where
  | ok (a : α)
  | err (e : ε)
  | panic
  | diverge
  deriving DecidableEq, Repr

namespace Out

variable {ε α β : Type}

/-- Rust's `?` (and propagation of panics). -/
def bind (x : Out ε α) (f : α → Out ε β) : Out ε β :=
  match x with
  | ok a => f a
  | err e => err e
  | panic => panic
  | diverge => diverge

instance : Monad (Out ε) where
  pure := ok
  bind := Out.bind

@[simp] theorem pure_eq (a : α) : (pure a : Out ε α) = ok a := rfl
@[simp] theorem ok_bind (a : α) (f : α → Out ε β) : (ok a >>= f) = f a := rfl
@[simp] theorem err_bind (e : ε) (f : α → Out ε β) : (err e >>= f) = err e := rfl
@[simp] theorem panic_bind (f : α → Out ε β) : (panic >>= f) = panic := rfl
@[simp] theorem diverge_bind (f : α → Out ε β) : (diverge >>= f) = diverge := rfl

theorem bind_eq_ok {x : Out ε α} {f : α → Out ε β} {b : β} :
    (x >>= f) = ok b ↔ ∃ a, x = ok a ∧ f a = ok b := by
  cases x <;> simp

theorem bind_eq_err {x : Out ε α} {f : α → Out ε β} {e : ε} :
    (x >>= f) = err e ↔ x = err e ∨ ∃ a, x = ok a ∧ f a = err e := by
  cases x <;> simp

theorem bind_eq_panic {x : Out ε α} {f : α → Out ε β} :
    (x >>= f) = panic ↔ x = panic ∨ ∃ a, x = ok a ∧ f a = panic := by
  cases x <;> simp

theorem bind_eq_diverge {x : Out ε α} {f : α → Out ε β} :
    (x >>= f) = diverge ↔ x = diverge ∨ ∃ a, x = ok a ∧ f a = diverge := by
  cases x <;> simp

@[simp] theorem map_ok (f : α → β) (a : α) : (f <$> (ok a : Out ε α)) = ok (f a) := rfl

instance : LawfulMonad (Out ε) := LawfulMonad.mk'
  (id_map := by intro α x; cases x <;> rfl)
  (pure_bind := by intros; rfl)
  (bind_assoc := by intro _ _ _ x f g; cases x <;> rfl)

end Out

/-- A computation on `&mut σ`: the new state is there whether it succeeded or not, as in Rust,
where mutations made before an `Err` stay. -/
def SO (σ ε α : Type) := σ → Out ε α × σ

namespace SO

variable {σ ε α β : Type}

def pure (a : α) : SO σ ε α := fun s => (.ok a, s)

def bind (x : SO σ ε α) (f : α → SO σ ε β) : SO σ ε β := fun s =>
  match x s with
  | (.ok a, s) => f a s
  | (.err e, s) => (.err e, s)
  | (.panic, s) => (.panic, s)
  | (.diverge, s) => (.diverge, s)

instance : Monad (SO σ ε) where
  pure := SO.pure
  bind := SO.bind

def get : SO σ ε σ := fun s => (.ok s, s)
def modify (f : σ → σ) : SO σ ε Unit := fun s => (.ok (), f s)
def lift (x : Out ε α) : SO σ ε α := fun s => (x, s)
def fail (e : ε) : SO σ ε α := fun s => (.err e, s)
def panic : SO σ ε α := fun s => (.panic, s)
def diverge : SO σ ε α := fun s => (.diverge, s)

end SO

/-- `str::is_char_boundary` (std): position 0, the end, or a byte that is not a UTF-8
continuation byte. -/
def isBoundary (s : Str) (i : Nat) : Bool :=
  i == 0 || match s[i]? with
    | none => i == s.length
    | some b => b < 0x80 || 0xC0 ≤ b

/-- `&s[a..b]` (std): panics unless `a ≤ b ≤ len` and both are character boundaries. -/
def slice {ε : Type} (s : Str) (a b : Nat) : Out ε Str :=
  if a ≤ b && isBoundary s a && isBoundary s b then .ok ((s.drop a).take (b - a)) else .panic

/-- A UTF-8 continuation byte. -/
def isCont (b : Byte) : Bool := 0x80 ≤ b && b ≤ 0xBF

/-- `str::from_utf8(..).is_ok()` (std): well-formed UTF-8, Unicode table 3-7. -/
def validUtf8 : Str → Bool
  | [] => true
  | b0 :: t =>
    if b0 < 0x80 then validUtf8 t
    else if 0xC2 ≤ b0 && b0 ≤ 0xDF then
      match t with
      | b1 :: t => isCont b1 && validUtf8 t
      | _ => false
    else if 0xE0 ≤ b0 && b0 ≤ 0xEF then
      match t with
      | b1 :: b2 :: t =>
        (if b0 == 0xE0 then 0xA0 ≤ b1 && b1 ≤ 0xBF
         else if b0 == 0xED then 0x80 ≤ b1 && b1 ≤ 0x9F
         else isCont b1) && isCont b2 && validUtf8 t
      | _ => false
    else if 0xF0 ≤ b0 && b0 ≤ 0xF4 then
      match t with
      | b1 :: b2 :: b3 :: t =>
        (if b0 == 0xF0 then 0x90 ≤ b1 && b1 ≤ 0xBF
         else if b0 == 0xF4 then 0x80 ≤ b1 && b1 ≤ 0x8F
         else isCont b1) && isCont b2 && isCont b3 && validUtf8 t
      | _ => false
    else false

/-- `String::from_utf8(v).unwrap()`: panics on ill-formed UTF-8. -/
def fromUtf8Unwrap {ε : Type} (s : Str) : Out ε Str :=
  if validUtf8 s then .ok s else .panic

end Yary
