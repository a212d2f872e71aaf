import Verif.Model.Token

/-! # The scanner's macros

`/repo/src/scanner/macros.rs`. A `&str` being scanned is the list of its remaining bytes; the
macros that look at a byte offset (`isBreak!(~buffer, 1)`) are the same predicate on the rest of
the buffer (`isBreak (buf.drop 1)`): `get(offset..)` beyond the end and the empty rest answer
alike in every variant that is used. -/

namespace Yary

/-- `/repo/src/scanner/macros.rs:446-466`: `widthOf!`, with the bit masks as ranges. -/
def widthOf (s : Str) : Nat :=
  match s with
  | [] => 0
  | c :: _ =>
    if c < 0x80 then 1
    else if 0xC0 ≤ c && c < 0xE0 then 2
    else if 0xE0 ≤ c && c < 0xF0 then 3
    else if 0xF0 ≤ c && c < 0xF8 then 4
    else 0

/-- `/repo/src/scanner/macros.rs:112-148`: `cache!`, without the byte count: asks for `n`
codepoints, failing with `Extend` if the buffer is short and more data may come. -/
def cache (opts : SFlags) : Nat → Str → Out ScanError Unit
  | 0, _ => .ok ()
  | n + 1, s =>
    if widthOf s = 0 then (if opts.extendable then .err .Extend else .ok ())
    else cache opts n (s.drop (widthOf s))

/-- `/repo/src/scanner/macros.rs:167-234`: `check!` against one byte literal. -/
def startsWith (s : Str) (b : Byte) : Bool := s.head? == some b

/-- `/repo/src/scanner/macros.rs:72-82`: `advance!(@amount …)`, the width of the line break the
buffer starts with, 0 if there is none. -/
def breakLen : Str → Nat
  | 0x0D :: 0x0A :: _ => 2
  | 0xC2 :: 0x85 :: _ => 2
  | 0xE2 :: 0x80 :: 0xA8 :: _ => 3
  | 0xE2 :: 0x80 :: 0xA9 :: _ => 3
  | 0x0D :: _ => 1
  | 0x0A :: _ => 1
  | _ => 0

/-- `/repo/src/scanner/macros.rs:265-279`: `isBreak!`. -/
def isBreak : Str → Bool
  | 0x0D :: _ => true
  | 0x0A :: _ => true
  | 0xC2 :: 0x85 :: _ => true
  | 0xE2 :: 0x80 :: 0xA8 :: _ => true
  | 0xE2 :: 0x80 :: 0xA9 :: _ => true
  | _ => false

/-- `/repo/src/scanner/macros.rs:293-307`: `isBreakZ!` (only used without an offset). -/
def isBreakZ (s : Str) : Bool := isBreak s || s.isEmpty

/-- `/repo/src/scanner/macros.rs:320-327`: `isBlank!`. -/
def isBlank (s : Str) : Bool := startsWith s b! ' ' || startsWith s 0x09

/-- `/repo/src/scanner/macros.rs:341-356`: `isWhiteSpace!`. -/
def isWhiteSpace (s : Str) : Bool := isBlank s || isBreak s

/-- `/repo/src/scanner/macros.rs:367-384`: `isWhiteSpaceZ!`. -/
def isWhiteSpaceZ (s : Str) : Bool := isBlank s || isBreak s || s.isEmpty

/-- The three bytes `---` or `...` of `/repo/src/scanner/macros.rs:410` and
`/repo/src/scanner/mod.rs:164`. -/
def startsMarker : Str → Bool
  | 0x2D :: 0x2D :: 0x2D :: _ => true
  | 0x2E :: 0x2E :: 0x2E :: _ => true
  | _ => false

/-- `/repo/src/scanner/macros.rs:398-413`: `isDocumentIndicator!`. -/
def isDocumentIndicator (s : Str) (column : Nat) : Bool :=
  column == 0 && startsMarker s && isWhiteSpaceZ (s.drop 3)

/-- `u8::is_ascii_hexdigit` (std), and `/repo/src/scanner/macros.rs:426-436`: `isHex!`. -/
def isHexDigit (b : Byte) : Bool :=
  (b! '0' ≤ b && b ≤ b! '9') || (b! 'A' ≤ b && b ≤ b! 'F') || (b! 'a' ≤ b && b ≤ b! 'f')

/-- `u8::is_ascii_digit` (std). -/
def isDigit (b : Byte) : Bool := b! '0' ≤ b && b ≤ b! '9'

/-- `u8::is_ascii_alphanumeric` (std). -/
def isAlnum (b : Byte) : Bool :=
  isDigit b || (b! 'A' ≤ b && b ≤ b! 'Z') || (b! 'a' ≤ b && b ≤ b! 'z')

/-- A buffer together with the statistics of what was read before it: the pair
`(buffer, stats)` every scanning function threads. -/
structure Cur where
  buf : Str
  stats : MStats
  deriving DecidableEq, Repr

/-- `/repo/src/scanner/macros.rs:33-40`: `advance!(buffer, :stats, n)`; `split_at` panics when
`n` is beyond the end or not on a character boundary. -/
def Cur.adv (c : Cur) (n : Nat) : Out ScanError Cur :=
  if isBoundary c.buf n then .ok ⟨c.buf.drop n, c.stats.update n 0 n⟩ else .panic

/-- `/repo/src/scanner/macros.rs:33-40`: `advance!(buffer, n)`, which leaves the statistics
alone. -/
def Cur.skip (c : Cur) (n : Nat) : Out ScanError Cur :=
  if isBoundary c.buf n then .ok ⟨c.buf.drop n, c.stats⟩ else .panic

/-- `/repo/src/scanner/macros.rs:51-59`: `advance!(buffer, :stats, @line)`. A line is counted
even if the buffer does not start with a break. -/
def Cur.line (c : Cur) : Out ScanError Cur :=
  if isBoundary c.buf (breakLen c.buf) then
    .ok ⟨c.buf.drop (breakLen c.buf), c.stats.update (breakLen c.buf) 1 0⟩
  else .panic

/-- `/repo/src/scanner/anchor.rs:85-101`, `/repo/src/scanner/directive.rs:116-132` and
`/repo/src/scanner/tag.rs:415-431`: `take_while`, its length. Simplification: only used with
predicates on ASCII bytes, whose width is 1. -/
def takeWhileLen (opts : SFlags) (f : Byte → Bool) : Str → Out ScanError Nat
  | [] => if opts.extendable then .err .Extend else .ok 0
  | b :: t => do
    cache opts 1 (b :: t)
    if f b then do
      let n ← takeWhileLen opts f t
      .ok (n + 1)
    else .ok 0

/-- `/repo/src/scanner/mod.rs:970-1005`: the loop of `eat_whitespace`. -/
def eatWsLoop (opts : SFlags) (comments : Bool) : Nat → Bool → Cur → Out ScanError Cur
  | 0, _, _ => .diverge
  | fuel + 1, chomp, c => do
    cache opts 1 c.buf
    if isBlank c.buf then do
      let c ← c.adv 1
      eatWsLoop opts comments fuel chomp c
    else if isBreak c.buf then do
      let c ← c.line
      eatWsLoop opts comments fuel false c
    else if comments && startsWith c.buf b! '#' then do
      let c ← c.adv 1
      eatWsLoop opts comments fuel true c
    else if chomp && !c.buf.isEmpty then do
      let c ← c.adv 1
      eatWsLoop opts comments fuel chomp c
    else .ok c

/-- `/repo/src/scanner/mod.rs:964-1008`: `eat_whitespace`; where the code returns the amount
chomped and leaves it to the caller to drop it, the model returns the rest of the buffer. -/
def eatWs (opts : SFlags) (comments : Bool) (c : Cur) : Out ScanError Cur :=
  eatWsLoop opts comments (c.buf.length + 1) false c

end Yary
