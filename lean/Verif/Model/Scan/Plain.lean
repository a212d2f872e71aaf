import Verif.Model.Scan.Flow

/-! # Plain scalars

`/repo/src/scanner/scalar/plain.rs`. -/

namespace Yary

/-- `/repo/src/scanner/scalar/plain.rs:404-407`: `flow_indicator` on the buffer from there, and
`/repo/src/scanner/mod.rs:1096`. -/
def flowIndicator (s : Str) : Bool :=
  startsWith s b! ',' || startsWith s b! '[' || startsWith s b! ']' || startsWith s b! '{' ||
    startsWith s b! '}'

/-- `/repo/src/scanner/scalar/plain.rs:125-126,144-145`: what ends a plain scalar. -/
def plainEnd (block : Bool) (s : Str) : Bool :=
  (startsWith s b! ':' && isWhiteSpaceZ (s.drop 1)) || (!block && flowIndicator s)

/-- The local variables of `/repo/src/scanner/scalar/plain.rs:55-76`: `cur` holds the buffer and
`local_stats`. -/
structure PlainSt where
  cur : Cur
  scalarStats : MStats
  scratch : Str := []
  canBorrow : Bool := true
  outdent : Bool := false
  whitespace : Nat := 0
  lines : Nat := 0

/-- `/repo/src/scanner/scalar/plain.rs:411-419`: `set_no_borrow`. -/
def PlainSt.noBorrow (base : Str) (st : PlainSt) : Out ScanError PlainSt :=
  if st.canBorrow then do
    let s ← slice base 0 (base.length - st.cur.buf.length)
    .ok { st with scratch := st.scratch ++ s, canBorrow := false }
  else .ok st

/-- `/repo/src/scanner/scalar/plain.rs:150-154`: take a byte as it is. -/
def PlainSt.push (st : PlainSt) : Out ScanError PlainSt := do
  let c ← st.cur.adv 1
  .ok { st with
    cur := c
    scratch := if st.canBorrow then st.scratch else st.scratch ++ st.cur.buf.take 1 }

/-- `/repo/src/scanner/scalar/plain.rs:140-155`: the loop over non-whitespace characters. -/
def plainWord (opts : SFlags) (block : Bool) : Nat → PlainSt → Out ScanError PlainSt
  | 0, _ => .diverge
  | fuel + 1, st =>
    if isWhiteSpaceZ st.cur.buf then .ok st
    else do
      cache opts 2 st.cur.buf
      if plainEnd block st.cur.buf then .ok st
      else do
        let st ← st.push
        plainWord opts block fuel st

/-- `/repo/src/scanner/scalar/plain.rs:160-187`: the loop over whitespace. -/
def plainSpace (opts : SFlags) (base : Str) : Nat → PlainSt → Out ScanError PlainSt
  | 0, _ => .diverge
  | fuel + 1, st => do
    cache opts 1 st.cur.buf
    if isBlank st.cur.buf then do
      let st ← st.push
      plainSpace opts base fuel { st with whitespace := st.whitespace + 1 }
    else if isBreak st.cur.buf then do
      let st ← st.noBorrow base
      let c ← st.cur.line
      plainSpace opts base fuel { st with cur := c, lines := st.lines + 1 }
    else .ok st

/-- `/repo/src/scanner/scalar/plain.rs:194-227`: joining lines. -/
def plainJoin (st : PlainSt) : Out ScanError PlainSt :=
  match st.lines with
  | 0 => .ok st
  | 1 => do
    let s ← truncEnd st.scratch st.whitespace
    .ok { st with scratch := s ++ [b! ' '], whitespace := 0 }
  | n + 2 => do
    let s ← truncEnd st.scratch st.whitespace
    .ok { st with scratch := s ++ List.replicate (n + 1) 0x0A, whitespace := 0, lines := n + 1 }

/-- `/repo/src/scanner/scalar/plain.rs:86-228`: the main loop. -/
def plainLoop (opts : SFlags) (base : Str) (indent : Nat) (block : Bool) : Nat → PlainSt →
    Out ScanError PlainSt
  | 0, _ => .diverge
  | fuel + 1, st => do
    cache opts 4 st.cur.buf
    if st.cur.buf.isEmpty then .ok st
    else if st.outdent then .ok st
    else if isDocumentIndicator st.cur.buf st.cur.stats.column || startsWith st.cur.buf b! '#' then
      .ok st
    else if plainEnd block st.cur.buf then .ok st
    else do
      let st ← plainWord opts block (base.length + 1) { st with whitespace := 0, lines := 0 }
      let st ← plainSpace opts base (base.length + 1) { st with scalarStats := st.cur.stats }
      let st ← plainJoin { st with outdent := block && st.cur.stats.column < indent }
      plainLoop opts base indent block fuel st

/-- `/repo/src/scanner/scalar/plain.rs:81`: a `:`, `?` or `-` before a flow indicator, in the flow
context. -/
def plainBadStart (block : Bool) (s : Str) : Bool :=
  !block && (startsWith s b! ':' || startsWith s b! '?' || startsWith s b! '-') &&
    flowIndicator (s.drop 1)

/-- `/repo/src/scanner/scalar/plain.rs:232-248`: the contents; `advance` is how far the scalar
reaches. -/
def plainSlice (base : Str) (st : PlainSt) (advance : Nat) : Out ScanError Str :=
  if st.canBorrow then slice base 0 advance
  else do
    let s ← truncEnd st.scratch (st.whitespace + st.lines)
    fromUtf8Unwrap s

/-- `/repo/src/scanner/scalar/plain.rs:47-254`: `scan_plain_scalar_eager`. The rest of the buffer
is what the caller gets by dropping the amount returned (`mod.rs:476`). -/
def scanPlainEager (opts : SFlags) (indent : Nat) (block : Bool) (c : Cur) :
    Out ScanError (Token × Cur) := do
  cache opts 2 c.buf
  if plainBadStart block c.buf then .err .InvalidPlainScalar
  else do
    let st ← plainLoop opts c.buf indent block (c.buf.length + 1) { cur := c, scalarStats := c.stats }
    let advance ← minus st.scalarStats.read c.stats.read
    let s ← plainSlice c.buf st advance
    let r ← Cur.skip ⟨c.buf, st.scalarStats⟩ advance
    .ok (.Scalar s .Plain, r)

/-- The local variables of `/repo/src/scanner/scalar/plain.rs:264-270`. -/
structure PlainLazySt where
  cur : Cur
  scalarStats : MStats
  outdent : Bool := false

/-- `/repo/src/scanner/scalar/plain.rs:321-341`: the loop over non-whitespace characters; `true` if
it left the scalar (lines 328-337), having moved `local_stats` past the indicator. -/
def plainLazyWord (opts : SFlags) (block : Bool) : Nat → PlainLazySt →
    Out ScanError (Bool × PlainLazySt)
  | 0, _ => .diverge
  | fuel + 1, st =>
    if isWhiteSpaceZ st.cur.buf then .ok (false, st)
    else do
      cache opts 2 st.cur.buf
      if plainEnd block st.cur.buf then
        let skip := if isWhiteSpace (st.cur.buf.drop 1) then 2 else 1
        .ok (true, { st with
          cur := ⟨st.cur.buf, st.cur.stats.update skip 0 skip⟩
          scalarStats := st.cur.stats })
      else do
        let c ← st.cur.adv 1
        plainLazyWord opts block fuel { st with cur := c }

/-- `/repo/src/scanner/scalar/plain.rs:346-365`: the loop over whitespace. -/
def plainLazySpace (opts : SFlags) : Nat → PlainLazySt → Out ScanError PlainLazySt
  | 0, _ => .diverge
  | fuel + 1, st => do
    cache opts 1 st.cur.buf
    if isBlank st.cur.buf then do
      let c ← st.cur.adv 1
      plainLazySpace opts fuel { st with cur := c }
    else if isBreak st.cur.buf then do
      let c ← st.cur.line
      plainLazySpace opts fuel { st with cur := c }
    else .ok st

/-- `/repo/src/scanner/scalar/plain.rs:275-370`: the main loop. -/
def plainLazyLoop (opts : SFlags) (base : Str) (indent : Nat) (block : Bool) : Nat → PlainLazySt →
    Out ScanError PlainLazySt
  | 0, _ => .diverge
  | fuel + 1, st => do
    cache opts 4 st.cur.buf
    if st.cur.buf.isEmpty then .ok st
    else if st.outdent then .ok st
    else if isDocumentIndicator st.cur.buf st.cur.stats.column || startsWith st.cur.buf b! '#' then
      .ok st
    else if plainEnd block st.cur.buf then .ok st
    else do
      let (done, st) ← plainLazyWord opts block (base.length + 1) st
      if done then .ok st
      else do
        let st ← plainLazySpace opts (base.length + 1) { st with scalarStats := st.cur.stats }
        plainLazyLoop opts base indent block fuel
          { st with outdent := block && st.cur.stats.column < indent }

/-- `/repo/src/scanner/scalar/plain.rs:256-401`: `scan_plain_scalar_lazy`. -/
def scanPlainLazy (opts : SFlags) (indent : Nat) (block : Bool) (c : Cur) :
    Out ScanError (Lazy × Cur) := do
  let st ← plainLazyLoop opts c.buf indent block (c.buf.length + 1)
    { cur := c, scalarStats := c.stats }
  let advance ← minus st.scalarStats.read c.stats.read
  let boundary ← minus st.cur.stats.read c.stats.read
  let s ← slice c.buf 0 boundary
  let r ← Cur.skip ⟨c.buf, st.scalarStats⟩ advance
  .ok (.plain { opts with extendable := false } s c.stats indent block, r)

/-- `/repo/src/scanner/scalar/plain.rs:19-36`: `scan_plain_scalar`; `indent` is `cxt.indent() + 1`
and `block` is `cxt.is_block()`. -/
def scanPlain (opts : SFlags) (indent : Nat) (block : Bool) (c : Cur) :
    Out ScanError (MaybeToken × Cur) :=
  if opts.lazy then do
    let (l, c) ← scanPlainLazy opts indent block c
    .ok (.Deferred l, c)
  else do
    let (t, c) ← scanPlainEager opts indent block c
    .ok (.Token t, c)

end Yary
