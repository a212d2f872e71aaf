import Verif.Model.Scan.Macros

/-! # Anchors and aliases

`/repo/src/scanner/anchor.rs`. -/

namespace Yary

/-- `/repo/src/scanner/anchor.rs:46`: the bytes that may follow an anchor name. -/
def anchorEnd (b : Byte) : Bool :=
  b = b! ' ' || b = 0x0A || b = b! '?' || b = b! ',' || b = b! ']' || b = b! '}' || b = b! '%' ||
    b = b! '@' || b = b! '`'

/-- `/repo/src/scanner/anchor.rs:45-48`: the check of the byte after the name. -/
def checkAnchorEnd : Str → Out ScanError Unit
  | [] => .err .UnexpectedEOF
  | b :: _ => if anchorEnd b then .ok () else .err .InvalidAnchorName

/-- `/repo/src/scanner/anchor.rs:17-57`: `scan_anchor`; `isAlias` is `AnchorKind::Alias`. -/
def scanAnchor (opts : SFlags) (isAlias : Bool) (c : Cur) : Out ScanError (Token × Cur) := do
  let c ← c.adv 1
  let n ← takeWhileLen opts isAlnum c.buf
  let name := c.buf.take n
  let c ← c.adv n
  if name.isEmpty then .err .InvalidAnchorName
  else do
    cache opts 1 c.buf
    checkAnchorEnd c.buf
    .ok (if isAlias then .Alias name else .Anchor name, c)

end Yary
