import Verif.Model.Scan.Scanner

/-! # Arithmetic without overflow checks

In the rest of the model a subtraction of `usize` that underflows panics, as in a build with overflow checks. Here it
yields a number instead, as in a build without them. Which one is left open: it is `u a b` for any function `u`; in a
release build it is `a - b + 2^64`. The definitions follow those of the same name in `Model/Scan`, and cite the lines with
the subtractions. -/

namespace Yary.Release

variable (u : Nat → Nat → Nat)

/-- `a - b` in `usize`, without overflow checks. -/
def less (a b : Nat) : Nat := if b ≤ a then a - b else u a b

/-- `scratch.truncate(scratch.len() - n)`, `/repo/src/scanner/scalar/flow.rs:211,223` and
`/repo/src/scanner/scalar/plain.rs:206,217,234`: truncating to a larger size does nothing (std). -/
def truncEnd (s : Str) (n : Nat) : Str := s.take (less u s.length n)

/-- `/repo/src/scanner/scalar/flow.rs:200-231`: joining lines. -/
def flowJoin (base : Str) (st : FlowSt) : Out ScanError FlowSt :=
  match st.lines with
  | 0 => .ok st
  | 1 => do
    let st ← st.noBorrow base
    let s := truncEnd u st.scratch st.whitespace
    .ok { st with scratch := if st.escapedBreak.isNone then s ++ [b! ' '] else s }
  | n + 2 => do
    let st ← st.noBorrow base
    let s := truncEnd u st.scratch st.whitespace
    .ok { st with scratch := s ++ List.replicate (n + 1) 0x0A }

/-- `/repo/src/scanner/scalar/flow.rs:69-232`: the main loop, up to the closing quote. -/
def flowLoop (opts : SFlags) (base : Str) (single : Bool) : Nat → FlowSt → Out ScanError FlowSt
  | 0, _ => .diverge
  | fuel + 1, st => do
    cache opts 4 st.cur.buf
    if isDocumentIndicator st.cur.buf st.cur.stats.column then .err .InvalidFlowScalar
    else if st.cur.buf.isEmpty then .err .UnexpectedEOF
    else do
      cache opts 1 st.cur.buf
      let (done, st) ← flowWord opts base single (base.length + 1) { st with escapedBreak := none }
      if done then .ok st
      else do
        let st ← flowSpace opts base (base.length + 1) { st with whitespace := 0, lines := 0 }
        let st ← flowJoin u base st
        flowLoop opts base single fuel st

/-- `/repo/src/scanner/scalar/flow.rs:44-253`: `scan_flow_scalar_eager`. -/
def scanFlowEager (opts : SFlags) (single : Bool) (c : Cur) : Out ScanError (Token × Cur) := do
  cache opts 1 c.buf
  let c1 ← c.adv 1
  let st ← flowLoop u opts c.buf single (c.buf.length + 1) { cur := c1 }
  let s ← flowSlice c.buf st
  cache opts 1 st.cur.buf
  let c2 ← st.cur.adv 1
  .ok (.Scalar s (flowStyle single), c2)

/-- `/repo/src/scanner/scalar/flow.rs:25-37`: `scan_flow_scalar`. -/
def scanFlow (opts : SFlags) (single : Bool) (c : Cur) : Out ScanError (MaybeToken × Cur) :=
  if opts.lazy then do
    let (l, c) ← scanFlowLazy opts single c
    .ok (.Deferred l, c)
  else do
    let (t, c) ← scanFlowEager u opts single c
    .ok (.Token t, c)

/-- `/repo/src/scanner/scalar/plain.rs:194-227`: joining lines. -/
def plainJoin (st : PlainSt) : PlainSt :=
  match st.lines with
  | 0 => st
  | 1 => { st with scratch := truncEnd u st.scratch st.whitespace ++ [b! ' '], whitespace := 0 }
  | n + 2 =>
    { st with
      scratch := truncEnd u st.scratch st.whitespace ++ List.replicate (n + 1) 0x0A
      whitespace := 0
      lines := n + 1 }

/-- `/repo/src/scanner/scalar/plain.rs:86-228`: the main loop. -/
def plainLoop (opts : SFlags) (base : Str) (indent : Nat) (block : Bool) : Nat → PlainSt →
    Out ScanError PlainSt
  | 0, _ => .diverge
  | fuel + 1, st => do
    cache opts 4 st.cur.buf
    if st.cur.buf.isEmpty then .ok st
    else if st.outdent then .ok st
    else if isDocumentIndicator st.cur.buf st.cur.stats.column || startsWith st.cur.buf b! '#' then
      .ok st
    else if plainEnd block st.cur.buf then .ok st
    else do
      let st ← plainWord opts block (base.length + 1) { st with whitespace := 0, lines := 0 }
      let st ← plainSpace opts base (base.length + 1) { st with scalarStats := st.cur.stats }
      plainLoop opts base indent block fuel
        (plainJoin u { st with outdent := block && st.cur.stats.column < indent })

/-- `/repo/src/scanner/scalar/plain.rs:232-248`: the contents. -/
def plainSlice (base : Str) (st : PlainSt) (advance : Nat) : Out ScanError Str :=
  if st.canBorrow then slice base 0 advance
  else fromUtf8Unwrap (truncEnd u st.scratch (st.whitespace + st.lines))

/-- `/repo/src/scanner/scalar/plain.rs:47-254`: `scan_plain_scalar_eager`; the subtraction is at 237. -/
def scanPlainEager (opts : SFlags) (indent : Nat) (block : Bool) (c : Cur) :
    Out ScanError (Token × Cur) := do
  cache opts 2 c.buf
  if plainBadStart block c.buf then .err .InvalidPlainScalar
  else do
    let st ← plainLoop u opts c.buf indent block (c.buf.length + 1) { cur := c, scalarStats := c.stats }
    let advance := less u st.scalarStats.read c.stats.read
    let s ← plainSlice u c.buf st advance
    let r ← Cur.skip ⟨c.buf, st.scalarStats⟩ advance
    .ok (.Scalar s .Plain, r)

/-- `/repo/src/scanner/scalar/plain.rs:256-401`: `scan_plain_scalar_lazy`; the subtractions are at 383-384. -/
def scanPlainLazy (opts : SFlags) (indent : Nat) (block : Bool) (c : Cur) :
    Out ScanError (Lazy × Cur) := do
  let st ← plainLazyLoop opts c.buf indent block (c.buf.length + 1)
    { cur := c, scalarStats := c.stats }
  let s ← slice c.buf 0 (less u st.cur.stats.read c.stats.read)
  let r ← Cur.skip ⟨c.buf, st.scalarStats⟩ (less u st.scalarStats.read c.stats.read)
  .ok (.plain { opts with extendable := false } s c.stats indent block, r)

/-- `/repo/src/scanner/scalar/plain.rs:19-36`: `scan_plain_scalar`. -/
def scanPlain (opts : SFlags) (indent : Nat) (block : Bool) (c : Cur) :
    Out ScanError (MaybeToken × Cur) :=
  if opts.lazy then do
    let (l, c) ← scanPlainLazy u opts indent block c
    .ok (.Deferred l, c)
  else do
    let (t, c) ← scanPlainEager u opts indent block c
    .ok (.Token t, c)

/-- `/repo/src/scanner/scalar/block.rs:182-290`: the main loop; the subtractions are at 247 and 269. -/
def blockLines (opts : SFlags) (base : Str) (read : Nat) (fold : Bool) (indent : Nat) : Nat →
    BlockSt → Out ScanError BlockSt
  | 0, _ => .diverge
  | fuel + 1, st =>
    if st.cur.stats.column = indent && !st.cur.buf.isEmpty then do
      let st ← st.trapdoor base
      let scratch := st.scratch ++ blockJoin fold st.lines
      let start := if st.canBorrow then
          (if st.start = 0 then less u st.cur.stats.read read else st.start)
        else 0
      cache opts 1 st.cur.buf
      let c ← toBreak opts (base.length + 1) st.cur
      let scratch := if st.canBorrow then scratch
        else scratch ++ st.cur.buf.take (st.cur.buf.length - c.buf.length)
      let stop := if st.canBorrow then less u c.stats.read read else scratch.length
      let (c, lines) ← eatBreak opts c 0
      let (c, lines) ← scanIndent opts indent c lines
      blockLines opts base read fold indent fuel
        { cur := c, scratch := scratch, canBorrow := st.canBorrow, start := start, stop := stop,
          lines := lines }
    else .ok st

/-- `/repo/src/scanner/scalar/block.rs:88-301`: `scan_block_scalar_eager`; the subtraction is at 168. -/
def scanBlockEager (opts : SFlags) (baseIndent : Nat) (fold : Bool) (c : Cur) :
    Out ScanError (Token × Cur) := do
  let (chomp, explicit, c1) ← blockHeader opts c
  let d ← blockIndent opts explicit baseIndent c1
  let st ← blockLines u opts c.buf c.stats.read fold d.indent (c.buf.length + 1)
    { cur := d.cur
      scratch := if d.canBorrow then [] else List.replicate d.lines 0x0A
      canBorrow := d.canBorrow
      start := if d.canBorrow then less u d.cur.stats.read c.stats.read else 0 }
  let s ← scanChomp c.buf chomp st
  .ok (.Scalar s (blockStyle fold), st.cur)

/-- `/repo/src/scanner/scalar/block.rs:61-79`: `scan_block_scalar`. -/
def scanBlock (opts : SFlags) (baseIndent : Nat) (fold : Bool) (c : Cur) :
    Out ScanError (MaybeToken × Cur) :=
  if opts.lazy then do
    let (l, c) ← scanBlockLazy opts baseIndent fold c
    .ok (.Deferred l, c)
  else do
    let (t, c) ← scanBlockEager u opts baseIndent fold c
    .ok (.Token t, c)

/-- `/repo/src/scanner/mod.rs:423-455`: `fetch_flow_scalar`. -/
def fetchFlowScalar (opts : SFlags) : Scan Unit := do
  let s ← Scan.get
  let (token, c) ← Scan.sub {} (scanFlow u opts (startsWith s.buf 0x27))
  Scan.finish token c

/-- `/repo/src/scanner/mod.rs:457-482`: `fetch_plain_scalar`. -/
def fetchPlainScalar (opts : SFlags) : Scan Unit := do
  let s ← Scan.get
  let (token, c) ← Scan.sub s.sc.stats
    (scanPlain u opts (levelSucc s.sc.context.level) s.sc.context.isBlock)
  Scan.saveKey
  Scan.upd fun sc => { sc with simpleKeyAllowed := false }
  Scan.commit c.buf c.stats
  Scan.enqueue token c.stats.read

/-- `/repo/src/scanner/mod.rs:484-510`: `fetch_block_scalar`. -/
def fetchBlockScalar (opts : SFlags) (fold : Bool) : Scan Unit := do
  Scan.removeSavedKey
  Scan.upd fun sc => { sc with simpleKeyAllowed := true }
  let s ← Scan.get
  let (token, c) ← Scan.sub s.sc.stats (scanBlock u opts (s.sc.context.level.getD 0) fold)
  Scan.commit c.buf c.stats
  Scan.enqueue token c.stats.read

/-- `/repo/src/scanner/mod.rs:158-223`: the right hand sides; only scalars have subtractions. -/
def run (opts : SFlags) : Scan.Fetch → Scan Unit
  | .block fold => fetchBlockScalar u opts fold
  | .quoted => fetchFlowScalar u opts
  | .plain => fetchPlainScalar u opts
  | f => Scan.run opts f

/-- `/repo/src/scanner/mod.rs:145-223`: the end of the stream, or the next token. -/
def fetchNext (opts : SFlags) : Scan Unit := do
  let s ← Scan.get
  if s.buf.isEmpty || s.sc.state == .Done then Scan.fetchStreamEnd
  else do
    SO.lift (cache opts 4 s.buf)
    run u opts (Scan.dispatch s.sc.context s.sc.stats.column s.buf)

/-- `/repo/src/scanner/mod.rs:120-224`: `scan_next_token`. -/
def scanNextToken (opts : SFlags) : Scan Unit := do
  let s ← Scan.get
  if s.sc.state == .Start then Scan.fetchStreamStart
  else do
    Scan.prepare opts
    fetchNext u opts

/-- `/repo/src/scanner/mod.rs:89-105`: the loop of `scan_tokens`. -/
def scanLoop (opts : SFlags) (base : Str) : Nat → Scanner → List TokenEntry →
    Out ScanError Unit × Scanner × List TokenEntry
  | 0, sc, out => (.diverge, sc, out)
  | fuel + 1, sc, out =>
    if sc.state ≠ .Done && (out.isEmpty || sc.keyPossible) then
      if isBoundary base sc.offset then
        match scanNextToken u opts ⟨sc, base.drop sc.offset, out⟩ with
        | (.ok _, s) =>
          scanLoop opts base fuel { s.sc with offset := base.length - s.buf.length } s.out
        | (.err e, s) =>
          if e = .Extend then
            (.err e, { s.sc with offset := base.length - s.buf.length }, s.out)
          else (.err e, s.sc, s.out)
        | (.panic, s) => (.panic, s.sc, s.out)
        | (.diverge, s) => (.diverge, s.sc, s.out)
      else scanLoop opts base fuel sc out
    else (.ok (), sc, out)

/-- `/repo/src/scanner/mod.rs:79-108`: `scan_tokens`. -/
def scanTokens (opts : SFlags) (base : Str) (sc : Scanner) :
    Out ScanError Unit × Scanner × List TokenEntry :=
  scanLoop u opts base (base.length + 3) sc []

/-- `Deferred::into_token` (see `Lazy.intoToken`). -/
def intoToken : Lazy → Out ScanError Token
  | .flow opts s stats single => do
    let (t, _) ← scanFlowEager u opts single ⟨s, stats⟩
    .ok t
  | .plain opts s stats indent blk => do
    let (t, _) ← scanPlainEager u opts indent blk ⟨s, stats⟩
    .ok t
  | .block opts s stats indent fold => do
    let (t, _) ← scanBlockEager u opts indent fold ⟨s, stats⟩
    .ok t

end Yary.Release
