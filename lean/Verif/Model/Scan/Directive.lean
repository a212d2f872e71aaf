import Verif.Model.Scan.Tag

/-! # Directives

`/repo/src/scanner/directive.rs`. -/

namespace Yary

/-- `/repo/src/scanner/directive.rs:68-72`: `DirectiveKind`. -/
inductive DirectiveKind where
  | Version
  | Tag
  deriving DecidableEq, Repr

/-- `/repo/src/scanner/directive.rs:81-95`: `DirectiveKind::new`. -/
def DirectiveKind.new (s : Str) : Out ScanError DirectiveKind :=
  if (bytes! "YAML").isPrefixOf s then .ok .Version
  else if (bytes! "TAG").isPrefixOf s then .ok .Tag
  else .err .UnknownDirective

/-- `/repo/src/scanner/directive.rs:98-105`: `DirectiveKind::len`. -/
def DirectiveKind.len : DirectiveKind → Nat
  | .Version => 4
  | .Tag => 3

/-- `atoi::<u8>` (crate `atoi`) on a slice of ASCII digits: no digits give `None`, and so does a
value that overflows `u8` at any step. -/
def atoiU8 (s : Str) : Option Nat :=
  match s with
  | [] => none
  | _ => s.foldl (fun acc b => acc.bind fun v =>
      if v * 10 + (b - b! '0') < 256 then some (v * 10 + (b - b! '0')) else none) (some 0)

/-- `/repo/src/scanner/directive.rs:108-114`: `scan_directive_version`, and the advance its
callers make. -/
def scanVersionNumber (opts : SFlags) (c : Cur) : Out ScanError (Nat × Cur) := do
  let n ← takeWhileLen opts isDigit c.buf
  match atoiU8 (c.buf.take n) with
  | none => .err .InvalidVersion
  | some v => do
    let c ← c.adv n
    .ok (v, c)

/-- `/repo/src/scanner/directive.rs:42`: `check!(~buffer => b'.', else InvalidVersion)`. -/
def requireDot : Str → Out ScanError Unit
  | [] => .err .UnexpectedEOF
  | b :: _ => if b = b! '.' then .ok () else .err .InvalidVersion

/-- `/repo/src/scanner/directive.rs:20-64`: `scan_directive`. -/
def scanDirective (opts : SFlags) (kind : DirectiveKind) (c : Cur) : Out ScanError (Token × Cur) :=
  match kind with
  | .Version => do
    let c ← eatWs opts false c
    let (major, c) ← scanVersionNumber opts c
    cache opts 1 c.buf
    requireDot c.buf
    let c ← c.adv 1
    let (minor, c) ← scanVersionNumber opts c
    .ok (.VersionDirective major minor, c)
  | .Tag => do
    let c ← eatWs opts false c
    scanTagDirective opts c

end Yary
