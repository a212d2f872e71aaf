import Verif.Model.Scan.Escape

/-! # Quoted scalars

`/repo/src/scanner/scalar/flow.rs`. -/

namespace Yary

/-- `/repo/src/scanner/scalar/flow.rs:372-377`: `EscapeState`. -/
inductive EscapeState where
  | Start | Started
  deriving DecidableEq, Repr

/-- The local variables of `/repo/src/scanner/scalar/flow.rs:53-58`. -/
structure FlowSt where
  cur : Cur
  scratch : Str := []
  canBorrow : Bool := true
  escapedBreak : Option EscapeState := none
  whitespace : Nat := 0
  lines : Nat := 0

/-- `/repo/src/scanner/scalar/flow.rs:326-336`: `set_no_borrow`. -/
def FlowSt.noBorrow (base : Str) (st : FlowSt) : Out ScanError FlowSt :=
  if st.canBorrow then do
    let s ← slice base 1 (base.length - st.cur.buf.length)
    .ok { st with scratch := st.scratch ++ s, canBorrow := false }
  else .ok st

/-- `/repo/src/scanner/scalar/flow.rs:132-137`: take a byte as it is. -/
def FlowSt.push (st : FlowSt) : Out ScanError FlowSt := do
  let c ← st.cur.adv 1
  .ok { st with
    cur := c
    scratch := if st.canBorrow then st.scratch else st.scratch ++ st.cur.buf.take 1 }

/-- `/repo/src/scanner/scalar/flow.rs:91-139`: the loop over non-whitespace characters; `true` if
it ended at the closing quote. -/
def flowWord (opts : SFlags) (base : Str) (single : Bool) : Nat → FlowSt →
    Out ScanError (Bool × FlowSt)
  | 0, _ => .diverge
  | fuel + 1, st =>
    if isWhiteSpaceZ st.cur.buf then .ok (false, st)
    else do
      cache opts 2 st.cur.buf
      if single && [0x27, 0x27].isPrefixOf st.cur.buf then do
        let st ← st.noBorrow base
        let c ← st.cur.adv 2
        flowWord opts base single fuel { st with cur := c, scratch := st.scratch ++ [0x27] }
      else if (single && startsWith st.cur.buf 0x27) || (!single && startsWith st.cur.buf b! '"') then
        .ok (true, st)
      else if !single && startsWith st.cur.buf 0x5C && isBreak (st.cur.buf.drop 1) then do
        let st ← st.noBorrow base
        let c ← st.cur.adv 1
        flowWord opts base single fuel { st with cur := c, escapedBreak := some .Start }
      else if !single && startsWith st.cur.buf 0x5C then do
        let st ← st.noBorrow base
        let (w, n) ← flowUnescape opts st.cur.buf
        let c ← st.cur.adv n
        flowWord opts base single fuel { st with cur := c, scratch := st.scratch ++ w }
      else do
        let st ← st.push
        flowWord opts base single fuel st

/-- `/repo/src/scanner/scalar/flow.rs:162-197`: the loop over whitespace. -/
def flowSpace (opts : SFlags) (base : Str) : Nat → FlowSt → Out ScanError FlowSt
  | 0, _ => .diverge
  | fuel + 1, st => do
    cache opts 1 st.cur.buf
    if isBlank st.cur.buf then do
      let st ← st.push
      flowSpace opts base fuel { st with whitespace := st.whitespace + 1 }
    else if isBreak st.cur.buf then do
      let st ← st.noBorrow base
      let c ← st.cur.line
      let st := if st.escapedBreak = some .Start then
        { st with whitespace := 0, escapedBreak := some .Started } else st
      flowSpace opts base fuel { st with cur := c, lines := st.lines + 1 }
    else .ok st

/-- `a - b` in `usize`; the subtraction panics if it underflows (in a build that checks it). -/
def minus (a b : Nat) : Out ScanError Nat := if b ≤ a then .ok (a - b) else .panic

/-- `scratch.truncate(scratch.len() - n)`; the subtraction panics if it underflows. -/
def truncEnd (s : Str) (n : Nat) : Out ScanError Str :=
  if n ≤ s.length then .ok (s.take (s.length - n)) else .panic

/-- `/repo/src/scanner/scalar/flow.rs:200-231`: joining lines. -/
def flowJoin (base : Str) (st : FlowSt) : Out ScanError FlowSt :=
  match st.lines with
  | 0 => .ok st
  | 1 => do
    let st ← st.noBorrow base
    let s ← truncEnd st.scratch st.whitespace
    .ok { st with scratch := if st.escapedBreak.isNone then s ++ [b! ' '] else s }
  | n + 2 => do
    let st ← st.noBorrow base
    let s ← truncEnd st.scratch st.whitespace
    .ok { st with scratch := s ++ List.replicate (n + 1) 0x0A }

/-- `/repo/src/scanner/scalar/flow.rs:69-232`: the main loop, up to the closing quote. -/
def flowLoop (opts : SFlags) (base : Str) (single : Bool) : Nat → FlowSt → Out ScanError FlowSt
  | 0, _ => .diverge
  | fuel + 1, st => do
    cache opts 4 st.cur.buf
    if isDocumentIndicator st.cur.buf st.cur.stats.column then .err .InvalidFlowScalar
    else if st.cur.buf.isEmpty then .err .UnexpectedEOF
    else do
      cache opts 1 st.cur.buf
      let (done, st) ← flowWord opts base single (base.length + 1) { st with escapedBreak := none }
      if done then .ok st
      else do
        let st ← flowSpace opts base (base.length + 1) { st with whitespace := 0, lines := 0 }
        let st ← flowJoin base st
        flowLoop opts base single fuel st

/-- `/repo/src/scanner/scalar/flow.rs:234-243`: the contents. -/
def flowSlice (base : Str) (st : FlowSt) : Out ScanError Str :=
  if st.canBorrow then slice base 1 (base.length - st.cur.buf.length)
  else fromUtf8Unwrap st.scratch

/-- The style of `/repo/src/scanner/scalar/flow.rs:59-63`. -/
def flowStyle (single : Bool) : ScalarStyle := if single then .SingleQuote else .DoubleQuote

/-- `/repo/src/scanner/scalar/flow.rs:44-253`: `scan_flow_scalar_eager`. -/
def scanFlowEager (opts : SFlags) (single : Bool) (c : Cur) : Out ScanError (Token × Cur) := do
  cache opts 1 c.buf
  let c1 ← c.adv 1
  let st ← flowLoop opts c.buf single (c.buf.length + 1) { cur := c1 }
  let s ← flowSlice c.buf st
  cache opts 1 st.cur.buf
  let c2 ← st.cur.adv 1
  .ok (.Scalar s (flowStyle single), c2)

/-- `/repo/src/scanner/scalar/flow.rs:280-313`: the loop of the lazy variant. -/
def flowLazyLoop (opts : SFlags) (single : Bool) : Nat → Cur → Out ScanError Cur
  | 0, _ => .diverge
  | fuel + 1, c => do
    cache opts 2 c.buf
    if c.buf.isEmpty then .err .UnexpectedEOF
    else if (single && [0x27, 0x27].isPrefixOf c.buf) ||
        (!single && [0x5C, b! '"'].isPrefixOf c.buf) then do
      let c ← c.adv 2
      flowLazyLoop opts single fuel c
    else if (single && startsWith c.buf 0x27) || (!single && startsWith c.buf b! '"') then
      c.adv 1
    else if isBreak c.buf then do
      let c ← c.line
      flowLazyLoop opts single fuel c
    else do
      let c ← c.adv (widthOf c.buf)
      flowLazyLoop opts single fuel c

/-- `/repo/src/scanner/scalar/flow.rs:259-323`: `scan_flow_scalar_lazy`. -/
def scanFlowLazy (opts : SFlags) (single : Bool) (c : Cur) : Out ScanError (Lazy × Cur) := do
  cache opts 1 c.buf
  let c1 ← c.adv 1
  let c2 ← flowLazyLoop opts single (c.buf.length + 1) c1
  let s ← slice c.buf 0 (c.buf.length - c2.buf.length)
  .ok (.flow { opts with extendable := false } s c.stats single, c2)

/-- `/repo/src/scanner/scalar/flow.rs:25-37`: `scan_flow_scalar`. -/
def scanFlow (opts : SFlags) (single : Bool) (c : Cur) : Out ScanError (MaybeToken × Cur) :=
  if opts.lazy then do
    let (l, c) ← scanFlowLazy opts single c
    .ok (.Deferred l, c)
  else do
    let (t, c) ← scanFlowEager opts single c
    .ok (.Token t, c)

end Yary
