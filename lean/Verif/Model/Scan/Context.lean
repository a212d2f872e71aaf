import Verif.Model.Scan.Macros

/-! # Indentation, flow level and saved keys

`/repo/src/scanner/context.rs`, `/repo/src/scanner/key.rs`. -/

namespace Yary

/-- `/repo/src/scanner/context.rs:176-193`: `IndentEntry`; `kind` is `BlockMappingStart` or
`BlockSequenceStart`. -/
structure IndentEntry where
  indent : Nat
  kind : Marker
  line : Nat
  zeroIndented : Bool
  deriving DecidableEq, Repr

/-- `/repo/src/scanner/context.rs:197-211`: `IndentEntry::new`. -/
def IndentEntry.new (indent line : Nat) (map : Bool) : IndentEntry :=
  { indent := indent
    kind := if map then .BlockMappingStart else .BlockSequenceStart
    line := line
    zeroIndented := false }

/-- `/repo/src/scanner/context.rs:25-34`: `Context`; the last element of `indents` is the head of
the list. -/
structure Context where
  flow : Nat := 0
  indent : Nat := 0
  indents : List IndentEntry := []
  started : Bool := false
  deriving DecidableEq, Repr

/-- `/repo/src/scanner/context.rs:110-113`: `is_block`. -/
def Context.isBlock (x : Context) : Bool := x.flow == 0

/-- `/repo/src/scanner/context.rs:68-71`: `is_flow`. -/
def Context.isFlow (x : Context) : Bool := !(x.flow == 0)

/-- `/repo/src/scanner/context.rs:73-79`: `flow_increment`. Simplification: a `usize` does not
overflow. -/
def Context.flowIncrement (x : Context) : Context := { x with flow := x.flow + 1 }

/-- `/repo/src/scanner/context.rs:81-87`: `flow_decrement`. -/
def Context.flowDecrement (x : Context) : Out ScanError Context :=
  match x.flow with
  | 0 => .err .IntOverflow
  | n + 1 => .ok { x with flow := n }

/-- `/repo/src/scanner/context.rs:90-97`: `indent()`; `none` is the "-1"th indent. -/
def Context.level (x : Context) : Option Nat := if x.started then some x.indent else none

/-- `/repo/src/scanner/context.rs:285-295`: `Indent < usize`. -/
def levelLt : Option Nat → Nat → Bool
  | some i, n => decide (i < n)
  | none, _ => true

/-- `/repo/src/scanner/context.rs:309-321`: `Indent + 1`. -/
def levelSucc : Option Nat → Nat
  | some i => i + 1
  | none => 1

/-- `/repo/src/scanner/context.rs:225`: `Indent(Some(indent)) > column`, where the column is given
or the starting indent (`None`, below everything). -/
def deeper (indent : Nat) : Option Nat → Bool
  | some column => decide (column < indent)
  | none => true

/-- `/repo/src/scanner/context.rs:119-127`: `indent_increment`. -/
def Context.indentIncrement (x : Context) (column line : Nat) (map : Bool) : Context :=
  { x with started := true, indents := .new x.indent line map :: x.indents, indent := column }

/-- `/repo/src/scanner/context.rs:142-148`: the loop of `indent_decrement`, with
`/repo/src/scanner/context.rs:154-170`: `pop_indent`: the remaining stack, the indent, and how
often the callback ran. -/
def popLoop (column : Option Nat) : List IndentEntry → Nat → List IndentEntry × Nat × Nat
  | [], indent => ([], indent, 0)
  | e :: es, indent =>
    if deeper indent column then
      let r := popLoop column es e.indent
      (r.1, r.2.1, r.2.2 + 1)
    else (e :: es, indent, 0)

/-- `/repo/src/scanner/context.rs:132-152`: `indent_decrement`: the context and how often the
callback ran. -/
def Context.indentDecrement (x : Context) (column : Option Nat) : Context × Nat :=
  if x.isBlock then
    let r := popLoop column x.indents x.indent
    ({ x with indents := r.1, indent := r.2.1 }, r.2.2)
  else (x, 0)

/-- `/repo/src/scanner/key.rs:180-185`: `KeyPossible`. -/
inductive KeyPossible where
  | No | Yes | Required
  deriving DecidableEq, Repr

/-- `/repo/src/scanner/key.rs:190-193`: `allowed`. -/
def KeyPossible.allowed : KeyPossible → Bool
  | .No => false
  | _ => true

/-- `/repo/src/scanner/key.rs:196-199`: `required`. -/
def KeyPossible.required : KeyPossible → Bool
  | .Required => true
  | _ => false

/-- `/repo/src/scanner/key.rs:134-138`: `KeySave`. -/
structure KeySave where
  possible : KeyPossible
  stats : MStats
  deriving DecidableEq, Repr

/-- `/repo/src/scanner/key.rs:93-98,142-151`: what `Key::save` stores. -/
def KeySave.new (stats : MStats) (required : Bool) : KeySave :=
  { possible := if required then .Required else .Yes, stats := stats }

end Yary
