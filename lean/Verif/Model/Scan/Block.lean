import Verif.Model.Scan.Flow

/-! # Block scalars

`/repo/src/scanner/scalar/block.rs`. -/

namespace Yary

/-- `/repo/src/scanner/scalar/block.rs:682-701`: `ChompStyle`. -/
inductive ChompStyle where
  | Clip | Strip | Keep
  deriving DecidableEq, Repr

/-- `/repo/src/scanner/scalar/block.rs:414-423`: the digit the header patterns bind: the first
byte if it is a digit, else the second byte if that is one. -/
def headerDigit : Str → Option Byte
  | [] => none
  | a :: t =>
    if isDigit a then some a
    else match t with
      | b :: _ => if isDigit b then some b else none
      | [] => none

/-- `/repo/src/scanner/scalar/block.rs:428,433`: is the first or the second byte this one? -/
def headerHas (s : Str) (b : Byte) : Bool := startsWith s b || startsWith (s.drop 1) b

/-- `/repo/src/scanner/scalar/block.rs:398-445`: `scan_headers`. The indent is `None` for 0
(`NonZeroU8::new`). -/
def scanHeaders (opts : SFlags) (c : Cur) : Out ScanError (ChompStyle × Option Nat × Cur) := do
  cache opts 2 c.buf
  let digit := headerDigit c.buf
  let indent : Option Nat := digit.bind fun i => if i = b! '0' then none else some (i - b! '0')
  let skip := if digit.isSome then 1 else 0
  let chomp : ChompStyle :=
    if headerHas c.buf b! '+' then .Keep else if headerHas c.buf b! '-' then .Strip else .Clip
  let skip := if chomp = .Clip then skip else skip + 1
  let c ← c.adv skip
  .ok (chomp, indent, c)

/-- `/repo/src/scanner/scalar/block.rs:662-666`: skipping blanks. -/
def skipBlanksLoop (opts : SFlags) : Nat → Cur → Out ScanError Cur
  | 0, _ => .diverge
  | fuel + 1, c =>
    if isBlank c.buf then do
      cache opts 1 c.buf
      let c ← c.adv 1
      skipBlanksLoop opts fuel c
    else .ok c

/-- `/repo/src/scanner/scalar/block.rs:670-674,255-264,363-367`: skipping to the end of the line. -/
def toBreak (opts : SFlags) : Nat → Cur → Out ScanError Cur
  | 0, _ => .diverge
  | fuel + 1, c =>
    if isBreakZ c.buf then .ok c
    else do
      cache opts 1 c.buf
      let c ← c.adv 1
      toBreak opts fuel c

/-- `/repo/src/scanner/scalar/block.rs:658-678`: `skip_blanks`, with comments. -/
def skipBlanks (opts : SFlags) (c : Cur) : Out ScanError Cur := do
  cache opts 1 c.buf
  let c ← skipBlanksLoop opts (c.buf.length + 1) c
  if startsWith c.buf b! '#' then toBreak opts (c.buf.length + 1) c else .ok c

/-- `/repo/src/scanner/scalar/block.rs:464-484`: the loop of `scan_indent`. -/
def scanIndentLoop (opts : SFlags) (indent : Nat) : Nat → Cur → Nat → Out ScanError (Cur × Nat)
  | 0, _, _ => .diverge
  | fuel + 1, c, lines =>
    if c.stats.column < indent && isWhiteSpace c.buf then
      if startsWith c.buf b! ' ' then do
        let c ← c.adv 1
        cache opts 1 c.buf
        scanIndentLoop opts indent fuel c lines
      else if startsWith c.buf 0x09 then .err .InvalidTab
      else do
        let c ← c.line
        cache opts 1 c.buf
        scanIndentLoop opts indent fuel c (lines + 1)
    else .ok (c, lines)

/-- `/repo/src/scanner/scalar/block.rs:448-487`: `scan_indent`; its result is never used, the
number of lines it adds to is an argument and a result. -/
def scanIndent (opts : SFlags) (indent : Nat) (c : Cur) (lines : Nat) : Out ScanError (Cur × Nat) :=
  if c.stats.column ≥ indent then .ok (c, lines)
  else do
    cache opts 1 c.buf
    scanIndentLoop opts indent (c.buf.length + 1) c lines

/-- The variables `detect_indent_level` works on. -/
structure DetectSt where
  cur : Cur
  indent : Nat := 0
  lines : Nat := 0
  canBorrow : Bool := true

/-- `/repo/src/scanner/scalar/block.rs:611-626`: the blanks of one line. -/
def detectBlanks (opts : SFlags) : Nat → DetectSt → Out ScanError DetectSt
  | 0, _ => .diverge
  | fuel + 1, st =>
    if isBlank st.cur.buf then do
      cache opts 1 st.cur.buf
      if startsWith st.cur.buf 0x09 then .err .InvalidTab
      else do
        let c ← st.cur.adv 1
        detectBlanks opts fuel
          { st with cur := c, canBorrow := st.canBorrow && !(0 < st.lines) }
    else .ok st

/-- `/repo/src/scanner/scalar/block.rs:606-644`: the loop of `detect_indent_level`. -/
def detectLoop (opts : SFlags) : Nat → DetectSt → Out ScanError DetectSt
  | 0, _ => .diverge
  | fuel + 1, st => do
    cache opts 1 st.cur.buf
    let st ← detectBlanks opts (st.cur.buf.length + 1) st
    let st := { st with indent := if st.cur.stats.column > st.indent then st.cur.stats.column
                                  else st.indent }
    cache opts 1 st.cur.buf
    if isBreak st.cur.buf then do
      let c ← st.cur.line
      detectLoop opts fuel { st with cur := c, lines := st.lines + 1 }
    else .ok st

/-- `/repo/src/scanner/scalar/block.rs:595-654`: `detect_indent_level`, with the lower bound. -/
def detectIndent (opts : SFlags) (baseIndent : Nat) (c : Cur) : Out ScanError DetectSt := do
  let st ← detectLoop opts (c.buf.length + 1) { cur := c }
  .ok { st with indent := if st.indent < baseIndent + 1 then baseIndent + 1 else st.indent }

/-- `/repo/src/scanner/scalar/block.rs:148-162,339-353`: the indentation level, given or
detected; with the lines skipped and whether a borrow is still possible. -/
def blockIndent (opts : SFlags) (explicit : Option Nat) (baseIndent : Nat) (c : Cur) :
    Out ScanError DetectSt :=
  match explicit with
  | some n => .ok { cur := c, indent := baseIndent + n }
  | none => detectIndent opts baseIndent c

/-- The local variables of `/repo/src/scanner/scalar/block.rs:97-115`: `cur` holds the buffer and
`local_stats`. -/
structure BlockSt where
  cur : Cur
  scratch : Str := []
  canBorrow : Bool := true
  start : Nat := 0
  stop : Nat := 0
  lines : Nat := 0

/-- `/repo/src/scanner/scalar/block.rs:203-235`: the joined lines, folded or literal. -/
def blockJoin (fold : Bool) (lines : Nat) : Str :=
  if fold then
    match lines with
    | 0 => []
    | 1 => [b! ' ']
    | n + 2 => List.replicate (n + 1) 0x0A
  else List.replicate lines 0x0A

/-- `/repo/src/scanner/scalar/block.rs:195-200`: the trapdoor from borrowing to copying. -/
def BlockSt.trapdoor (base : Str) (st : BlockSt) : Out ScanError BlockSt :=
  if st.canBorrow && 0 < st.lines then do
    let s ← slice base st.start st.stop
    .ok { st with scratch := st.scratch ++ s, canBorrow := false }
  else .ok st

/-- `/repo/src/scanner/scalar/block.rs:273-279`: eat the line break, if any. -/
def eatBreak (opts : SFlags) (c : Cur) (lines : Nat) : Out ScanError (Cur × Nat) := do
  cache opts 1 c.buf
  if isBreak c.buf then do
    let c ← c.line
    .ok (c, lines + 1)
  else .ok (c, lines)

/-- `/repo/src/scanner/scalar/block.rs:241-249`: where the contents start, relative to the scalar;
`read` is `stats.read`. -/
def BlockSt.contentStart (read : Nat) (st : BlockSt) : Out ScanError Nat :=
  if st.canBorrow then
    if st.start = 0 then minus st.cur.stats.read read else .ok st.start
  else .ok 0

/-- `/repo/src/scanner/scalar/block.rs:266-271`: where the contents end. -/
def contentEnd (canBorrow : Bool) (read : Nat) (c : Cur) (scratch : Str) : Out ScanError Nat :=
  if canBorrow then minus c.stats.read read else .ok scratch.length

/-- `/repo/src/scanner/scalar/block.rs:182-290`: the main loop; `read` is `stats.read`. In the
inner loop (255-264) the bytes pushed are those the cursor moves over. -/
def blockLines (opts : SFlags) (base : Str) (read : Nat) (fold : Bool) (indent : Nat) : Nat →
    BlockSt → Out ScanError BlockSt
  | 0, _ => .diverge
  | fuel + 1, st =>
    if st.cur.stats.column = indent && !st.cur.buf.isEmpty then do
      let st ← st.trapdoor base
      let scratch := st.scratch ++ blockJoin fold st.lines
      let start ← st.contentStart read
      cache opts 1 st.cur.buf
      let c ← toBreak opts (base.length + 1) st.cur
      let scratch := if st.canBorrow then scratch
        else scratch ++ st.cur.buf.take (st.cur.buf.length - c.buf.length)
      let stop ← contentEnd st.canBorrow read c scratch
      let (c, lines) ← eatBreak opts c 0
      let (c, lines) ← scanIndent opts indent c lines
      blockLines opts base read fold indent fuel
        { cur := c, scratch := scratch, canBorrow := st.canBorrow, start := start, stop := stop,
          lines := lines }
    else .ok st

/-- `/repo/src/scanner/scalar/block.rs:511-556`: `scan_chomp` while borrowing; `none` where it
falls through to the copying case with a scratch space. -/
def chompBorrow (base : Str) (style : ChompStyle) (start stop lines : Nat) :
    Out ScanError Str :=
  match style with
  | .Clip =>
    if 0 < lines then do
      let rest ← slice base stop base.length
      slice base start (stop + widthOf (rest.drop 1))
    else slice base start stop
  | .Strip => slice base start stop
  | .Keep => slice base start (stop + lines)

/-- `/repo/src/scanner/scalar/block.rs:559-588`: `scan_chomp` on a copy. -/
def chompCopy (scratch : Str) (style : ChompStyle) (stop lines : Nat) : Out ScanError Str :=
  match style with
  | .Clip =>
    if 0 < lines then fromUtf8Unwrap ((scratch ++ [0x0A]).take (stop + 1))
    else fromUtf8Unwrap (scratch.take stop)
  | .Strip => fromUtf8Unwrap (scratch.take stop)
  | .Keep => fromUtf8Unwrap (scratch ++ List.replicate lines 0x0A)

/-- `/repo/src/scanner/scalar/block.rs:494-591`: `scan_chomp`; the case at 541-554 copies the
borrow and the trailing lines, and sets `lines` to 0 before the copying case appends them. -/
def scanChomp (base : Str) (style : ChompStyle) (st : BlockSt) : Out ScanError Str :=
  if st.canBorrow then
    if style = .Keep && 1 < st.lines then do
      let s ← slice base st.start st.stop
      chompCopy (st.scratch ++ s ++ List.replicate st.lines 0x0A) .Keep st.stop 0
    else chompBorrow base style st.start st.stop st.lines
  else chompCopy st.scratch style st.stop st.lines

/-- `/repo/src/scanner/scalar/block.rs:120-144,318-335`: the indicator, the headers and the rest of
the header line. -/
def blockHeader (opts : SFlags) (c : Cur) : Out ScanError (ChompStyle × Option Nat × Cur) := do
  cache opts 1 c.buf
  let c ← c.adv 1
  let (chomp, explicit, c) ← scanHeaders opts c
  let c ← skipBlanks opts c
  cache opts 1 c.buf
  if !isWhiteSpaceZ c.buf then .err .InvalidBlockScalar
  else do
    let c ← c.line
    .ok (chomp, explicit, c)

/-- The style of `/repo/src/scanner/scalar/block.rs:121-125`. -/
def blockStyle (fold : Bool) : ScalarStyle := if fold then .Folded else .Literal

/-- `/repo/src/scanner/scalar/block.rs:164-179`: the variables at the start of the main loop; `read`
is `stats.read`. -/
def blockBegin (read : Nat) (d : DetectSt) : Out ScanError BlockSt :=
  if d.canBorrow then do
    let start ← minus d.cur.stats.read read
    .ok { cur := d.cur, start := start }
  else .ok { cur := d.cur, scratch := List.replicate d.lines 0x0A, canBorrow := false }

/-- `/repo/src/scanner/scalar/block.rs:88-301`: `scan_block_scalar_eager`. -/
def scanBlockEager (opts : SFlags) (baseIndent : Nat) (fold : Bool) (c : Cur) :
    Out ScanError (Token × Cur) := do
  let (chomp, explicit, c1) ← blockHeader opts c
  let d ← blockIndent opts explicit baseIndent c1
  let st ← blockBegin c.stats.read d
  let st ← blockLines opts c.buf c.stats.read fold d.indent (c.buf.length + 1) st
  let s ← scanChomp c.buf chomp st
  .ok (.Scalar s (blockStyle fold), st.cur)

/-- `/repo/src/scanner/scalar/block.rs:355-385`: the main loop of the lazy variant. -/
def blockLazyLoop (opts : SFlags) (indent : Nat) : Nat → Cur → Out ScanError Cur
  | 0, _ => .diverge
  | fuel + 1, c =>
    if c.stats.column = indent && !c.buf.isEmpty then do
      cache opts 1 c.buf
      let c ← toBreak opts (c.buf.length + 1) c
      let (c, _) ← eatBreak opts c 0
      let (c, _) ← scanIndent opts indent c 0
      blockLazyLoop opts indent fuel c
    else .ok c

/-- `/repo/src/scanner/scalar/block.rs:303-395`: `scan_block_scalar_lazy`; unlike the other two it
keeps `O_EXTENDABLE` in the deferred scalar. -/
def scanBlockLazy (opts : SFlags) (baseIndent : Nat) (fold : Bool) (c : Cur) :
    Out ScanError (Lazy × Cur) := do
  let (_, explicit, c1) ← blockHeader opts c
  let d ← blockIndent opts explicit baseIndent c1
  let c2 ← blockLazyLoop opts d.indent (c.buf.length + 1) d.cur
  let s ← slice c.buf 0 (c.buf.length - c2.buf.length)
  .ok (.block opts s c.stats baseIndent fold, c2)

/-- `/repo/src/scanner/scalar/block.rs:61-79`: `scan_block_scalar`; `baseIndent` is
`cxt.indent().as_usize()`. -/
def scanBlock (opts : SFlags) (baseIndent : Nat) (fold : Bool) (c : Cur) :
    Out ScanError (MaybeToken × Cur) :=
  if opts.lazy then do
    let (l, c) ← scanBlockLazy opts baseIndent fold c
    .ok (.Deferred l, c)
  else do
    let (t, c) ← scanBlockEager opts baseIndent fold c
    .ok (.Token t, c)

end Yary
