import Verif.Model.Scan.Macros

/-! # Escape sequences

`/repo/src/scanner/scalar/escape.rs`. -/

namespace Yary

/-- `/repo/src/scanner/scalar/escape.rs:216-230`: `as_hex`. -/
def asHex (b : Byte) : Nat :=
  if b! 'A' ≤ b && b ≤ b! 'F' then b - b! 'A' + 10
  else if b! 'a' ≤ b && b ≤ b! 'f' then b - b! 'a' + 10
  else b - b! '0'

/-- `/repo/src/scanner/scalar/escape.rs:167-177`: the loop of `write_unicode_point`, reading `n`
hexadecimal digits. The value never exceeds 32 bits as at most 8 digits are read. -/
def readHex : Nat → Nat → Str → Out ScanError Nat
  | 0, v, _ => .ok v
  | _ + 1, _, [] => .err .UnexpectedEOF
  | n + 1, v, b :: t => if isHexDigit b then readHex n (v * 16 + asHex b) t else .err .UnknownEscape

/-- `/repo/src/scanner/scalar/escape.rs:181-203`: the UTF-8 bytes `write_unicode_point` writes;
`as u8` truncates. -/
def encodePoint (v : Nat) : Str :=
  if v ≤ 0x7F then [v]
  else if v ≤ 0x7FF then [0xC0 ||| (v >>> 6), 0x80 ||| (v &&& 0x3F)]
  else if v ≤ 0xFFFF then
    [0xE0 ||| (v >>> 12), 0x80 ||| ((v >>> 6) &&& 0x3F), 0x80 ||| (v &&& 0x3F)]
  else
    [0xF0 ||| ((v >>> 18) % 256), 0x80 ||| ((v >>> 12) &&& 0x3F), 0x80 ||| ((v >>> 6) &&& 0x3F),
      0x80 ||| (v &&& 0x3F)]

/-- What follows a backslash in a double quoted scalar. -/
inductive EscapeKind where
  | bytes (s : Str)
  | code (digits : Nat)
  | eof
  | unknown

/-- `/repo/src/scanner/scalar/escape.rs:48-73`: the table of escapes, by the bytes after the
backslash. -/
def escapeKind : Str → EscapeKind
  | [] => .eof
  | b :: _ =>
    if b = b! '0' then .bytes [0x00]
    else if b = b! 'a' then .bytes [0x07]
    else if b = b! 'b' then .bytes [0x08]
    else if b = b! 't' || b = 0x09 then .bytes [0x09]
    else if b = b! 'n' then .bytes [0x0A]
    else if b = b! 'v' then .bytes [0x0B]
    else if b = b! 'f' then .bytes [0x0C]
    else if b = b! 'r' then .bytes [0x0D]
    else if b = b! 'e' then .bytes [0x1B]
    else if b = b! ' ' then .bytes [0x20]
    else if b = b! '"' then .bytes [b! '"']
    else if b = b! '/' then .bytes [b! '/']
    else if b = 0x5C then .bytes [0x5C]
    else if b = b! 'N' then .bytes [0xC2, 0x85]
    else if b = b! '_' then .bytes [0xC2, 0xA0]
    else if b = b! 'L' then .bytes [0xE2, 0x80, 0xA8]
    else if b = b! 'P' then .bytes [0xE2, 0x80, 0xA9]
    else if b = b! 'x' then .code 2
    else if b = b! 'u' then .code 4
    else if b = b! 'U' then .code 8
    else .unknown

/-- `/repo/src/scanner/scalar/escape.rs:27-86`: `flow_unescape` on a buffer that starts with a
backslash (lines 38-41 return 0 otherwise): the bytes it appends to the scratch space and the
number of bytes read. -/
def flowUnescape (opts : SFlags) (s : Str) : Out ScanError (Str × Nat) := do
  cache opts 1 s
  if !startsWith s 0x5C then .ok ([], 0)
  else do
    let s := s.drop 1
    cache opts 1 s
    match escapeKind s with
    | .eof => .err .UnexpectedEOF
    | .unknown => .err .UnknownEscape
    | .bytes w => .ok (w, 2)
    | .code n => do
      cache opts n (s.drop 1)
      let v ← readHex n 0 (s.drop 1)
      .ok (encodePoint v, 2 + n)

/-- `/repo/src/scanner/scalar/escape.rs:123-133`: how many octets the codepoint starting with
this octet has, 0 if it cannot start one. -/
def octetLen (o : Nat) : Nat :=
  if o < 0x80 then 1
  else if 0xC0 ≤ o && o < 0xE0 then 2
  else if 0xE0 ≤ o && o < 0xF0 then 3
  else if 0xF0 ≤ o && o < 0xF8 then 4
  else 0

/-- `/repo/src/scanner/scalar/escape.rs:104-118`: one `%XX`; as_hex values are below 16, so the
shift and addition cannot overflow. -/
def percentOctet (opts : SFlags) (s : Str) : Out ScanError Nat := do
  cache opts 3 s
  match s with
  | p :: a :: b :: _ =>
    if p = b! '%' && isHexDigit a && isHexDigit b then .ok (asHex a * 16 + asHex b)
    else .err .UnknownEscape
  | _ => .err .UnexpectedEOF

/-- `/repo/src/scanner/scalar/escape.rs:103-150`: the trailing octets of `tag_uri_unescape`. -/
def percentTrail (opts : SFlags) : Nat → Str → Out ScanError Str
  | 0, _ => .ok []
  | n + 1, s => do
    let o ← percentOctet opts s
    if 0x80 ≤ o && o < 0xC0 then do
      let os ← percentTrail opts n (s.drop 3)
      .ok (o :: os)
    else .err .UnknownEscape

/-- `/repo/src/scanner/scalar/escape.rs:93-153`: `tag_uri_unescape`: the octets appended to the
scratch space; three bytes of the buffer are read for each. -/
def tagUriUnescape (opts : SFlags) (s : Str) : Out ScanError Str := do
  let o ← percentOctet opts s
  if octetLen o = 0 then .err .UnknownEscape
  else do
    let os ← percentTrail opts (octetLen o - 1) (s.drop 3)
    .ok (o :: os)

end Yary
