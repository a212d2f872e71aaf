import Verif.Model.Scan.Anchor
import Verif.Model.Scan.Directive
import Verif.Model.Scan.Plain
import Verif.Model.Scan.Block
import Verif.Model.Scan.Context

/-! # The scanner

`/repo/src/scanner/mod.rs`. -/

namespace Yary

/-- `/repo/src/scanner/mod.rs:954-959`: `StreamState`. -/
inductive StreamState where
  | Start | Stream | Done
  deriving DecidableEq, Repr

/-- `/repo/src/scanner/mod.rs:44-75`: `Scanner`; the defaults are `Scanner::new`. -/
structure Scanner where
  offset : Nat := 0
  state : StreamState := .Start
  simpleKeyAllowed : Bool := false
  stats : MStats := {}
  key : Option KeySave := none
  context : Context := {}
  deriving DecidableEq, Repr

/-- What a scanning step works on: the scanner, the rest of the buffer, and the tokens pushed so
far by this call of `scan_tokens`, in the order they were pushed. -/
structure SS where
  sc : Scanner
  buf : Str
  out : List TokenEntry := []
  deriving DecidableEq, Repr

/-- A method of the scanner. -/
abbrev Scan := SO SS ScanError

namespace Scan

/-- The current state. -/
def get : Scan SS := SO.get

/-- Change the scanner. -/
def upd (f : Scanner → Scanner) : Scan Unit := SO.modify fun s => { s with sc := f s.sc }

/-- `/repo/src/scanner/macros.rs:242-252`: `enqueue!`: push a token at a position. -/
def enqueue (t : MaybeToken) (read : Nat) : Scan Unit :=
  SO.modify fun s => { s with out := s.out ++ [⟨t, read⟩] }

/-- `enqueue!(token, :self.stats => tokens)`: push a token at the current position. -/
def push (t : Token) : Scan Unit := do
  let s ← get
  enqueue (.Token t) s.sc.stats.read

/-- `advance!(*base, :self.stats, n)`. -/
def advance (n : Nat) : Scan Unit := fun s =>
  match Cur.adv ⟨s.buf, s.sc.stats⟩ n with
  | .ok c => (.ok (), { s with buf := c.buf, sc := { s.sc with stats := c.stats } })
  | .err e => (.err e, s)
  | .panic => (.panic, s)
  | .diverge => (.diverge, s)

/-- `self.key.saved().take()`. -/
def takeKey : Scan (Option KeySave) := do
  let s ← get
  upd fun sc => { sc with key := none }
  return s.sc.key

/-- `/repo/src/scanner/mod.rs:870-881`: `remove_saved_key`. -/
def removeSavedKey : Scan Unit := do
  match ← takeKey with
  | some k => if k.possible.required then SO.fail .MissingValue else return ()
  | none => return ()

/-- `/repo/src/scanner/mod.rs:853-868`: `save_key(!REQUIRED)`, the only way it is called. -/
def saveKey : Scan Unit := do
  let s ← get
  let required := s.sc.context.isBlock && s.sc.context.level == some s.sc.stats.column
  if s.sc.simpleKeyAllowed then do
    removeSavedKey
    upd fun sc => { sc with key := some (.new s.sc.stats required) }
  else return ()

/-- `/repo/src/scanner/mod.rs:1065-1087,775-780`: `unroll_indent`: pop indents down to the column,
pushing a `BlockEnd` for each. -/
def unrollIndent (column : Option Nat) : Scan Unit := SO.modify fun s =>
  let r := s.sc.context.indentDecrement column
  { s with
    sc := { s.sc with context := r.1 }
    out := s.out ++ List.replicate r.2 ⟨.Token .BlockEnd, s.sc.stats.read⟩ }

/-- `/repo/src/scanner/mod.rs:1043-1046`: is the innermost indent a mapping? -/
def lastIsMap (x : Context) : Bool :=
  match x.indents with
  | [] => false
  | e :: _ => e.kind == .BlockMappingStart

/-- `/repo/src/scanner/mod.rs:1052`: flag the innermost indent. -/
def flagZero (x : Context) : Context :=
  match x.indents with
  | [] => x
  | e :: es => { x with indents := { e with zeroIndented := true } :: es }

/-- `/repo/src/scanner/mod.rs:1012-1060`: `roll_indent`. -/
def rollIndent (mark line column : Nat) (map : Bool) : Scan Unit := do
  let s ← get
  let x := s.sc.context
  let token := if map then .BlockMappingStart else .BlockSequenceStart
  if x.isBlock then
    if levelLt x.level column then do
      upd fun sc => { sc with context := x.indentIncrement column line map }
      enqueue (.Token token) mark
    else if !map && x.level == some column && lastIsMap x then do
      upd fun sc => { sc with context := flagZero (x.indentIncrement column line map) }
      enqueue (.Token token) mark
    else return ()
  else return ()

/-- Run one of the sub-scanners on a copy of the buffer, with the given statistics; the buffer and
the scanner are left alone. -/
def sub {α : Type} (stats : MStats) (f : Cur → Out ScanError α) : Scan α := do
  let s ← get
  SO.lift (f ⟨s.buf, stats⟩)

/-- `advance!(*base, amt)` and `self.stats = stats`, after a sub-scanner: `split_at` panics off a
character boundary. -/
def commit (buf : Str) (stats : MStats) : Scan Unit := fun s =>
  if isBoundary s.buf (s.buf.length - buf.length) then
    (.ok (), { s with buf := buf, sc := { s.sc with stats := stats } })
  else (.panic, s)

/-- `/repo/src/scanner/mod.rs:226-239`: `fetch_stream_start`, in the state `Start`. -/
def fetchStreamStart : Scan Unit := do
  upd fun sc => { sc with simpleKeyAllowed := true, state := .Stream }
  push (.StreamStart .UTF8)

/-- `/repo/src/scanner/mod.rs:241-265`: `fetch_stream_end`. -/
def fetchStreamEnd : Scan Unit := do
  let s ← get
  if s.sc.state == .Done then return ()
  else if s.buf.isEmpty then do
    unrollIndent none
    removeSavedKey
    upd fun sc => { sc with state := .Done }
    push .StreamEnd
  else return ()

/-- `/repo/src/scanner/mod.rs:267-294`: `fetch_document_marker`. -/
def fetchDocumentMarker (start : Bool) : Scan Unit := do
  unrollIndent none
  removeSavedKey
  upd fun sc => { sc with simpleKeyAllowed := false }
  advance 3
  push (if start then .DocumentStart else .DocumentEnd)

/-- `/repo/src/scanner/mod.rs:303-326`: the scanning part of `fetch_directive`. -/
def directiveToken (opts : SFlags) (c : Cur) : Out ScanError (Token × Cur) := do
  cache opts 4 (c.buf.drop 1)
  let kind ← DirectiveKind.new (c.buf.drop 1)
  let c ← c.adv (1 + kind.len)
  scanDirective opts kind c

/-- `/repo/src/scanner/mod.rs:296-346`: `fetch_directive`, on a buffer that starts with `%`. -/
def fetchDirective (opts : SFlags) : Scan Unit := do
  let (token, c) ← sub {} (directiveToken opts)
  unrollIndent none
  removeSavedKey
  upd fun sc => { sc with simpleKeyAllowed := false }
  let s ← get
  commit c.buf (s.sc.stats.add c.stats)
  push token

/-- `/repo/src/scanner/mod.rs:366-377,407-418,441-452`: what follows the scanning of a tag, an
anchor or a quoted scalar. -/
def finish (token : MaybeToken) (c : Cur) : Scan Unit := do
  saveKey
  upd fun sc => { sc with simpleKeyAllowed := false }
  let s ← get
  commit c.buf (s.sc.stats.add c.stats)
  let s ← get
  enqueue token s.sc.stats.read

/-- `/repo/src/scanner/mod.rs:348-380`: `fetch_tag`, on a buffer that starts with `!`. -/
def fetchTag (opts : SFlags) : Scan Unit := do
  let (token, c) ← sub {} (scanNodeTag opts)
  finish (.Token token) c

/-- `/repo/src/scanner/mod.rs:382-421`: `fetch_anchor`, on a buffer that starts with `&` or `*`. -/
def fetchAnchor (opts : SFlags) : Scan Unit := do
  let s ← get
  let (token, c) ← sub {} (scanAnchor opts (startsWith s.buf b! '*'))
  finish (.Token token) c

/-- `/repo/src/scanner/mod.rs:423-455`: `fetch_flow_scalar`, on a buffer that starts with a quote. -/
def fetchFlowScalar (opts : SFlags) : Scan Unit := do
  let s ← get
  let (token, c) ← sub {} (scanFlow opts (startsWith s.buf 0x27))
  finish token c

/-- `/repo/src/scanner/mod.rs:457-482`: `fetch_plain_scalar`. -/
def fetchPlainScalar (opts : SFlags) : Scan Unit := do
  let s ← get
  let (token, c) ← sub s.sc.stats
    (scanPlain opts (levelSucc s.sc.context.level) s.sc.context.isBlock)
  saveKey
  upd fun sc => { sc with simpleKeyAllowed := false }
  commit c.buf c.stats
  enqueue token c.stats.read

/-- `/repo/src/scanner/mod.rs:484-510`: `fetch_block_scalar`. -/
def fetchBlockScalar (opts : SFlags) (fold : Bool) : Scan Unit := do
  removeSavedKey
  upd fun sc => { sc with simpleKeyAllowed := true }
  let s ← get
  let (token, c) ← sub s.sc.stats (scanBlock opts (s.sc.context.level.getD 0) fold)
  commit c.buf c.stats
  enqueue token c.stats.read

/-- `roll_indent` at the current position, as `fetch_explicit_key`, `fetch_value` and
`fetch_block_collection_entry` call it. -/
def rollHere (map : Bool) : Scan Unit := do
  let s ← get
  rollIndent s.sc.stats.read s.sc.stats.lines s.sc.stats.column map

/-- `/repo/src/scanner/mod.rs:534-553`: the checks of `fetch_explicit_key` in the block context. -/
def explicitKeyCheck : Scan Unit := do
  let s ← get
  if s.sc.context.isBlock then
    if !s.sc.simpleKeyAllowed then SO.fail .InvalidKey
    else rollHere true
  else return ()

/-- `/repo/src/scanner/mod.rs:512-577`: `fetch_explicit_key`. -/
def fetchExplicitKey : Scan Unit := do
  let s ← get
  explicitKeyCheck
  removeSavedKey
  upd fun sc => { sc with simpleKeyAllowed := s.sc.context.isBlock }
  advance 1
  push .Key

/-- `/repo/src/scanner/mod.rs:587-607`: a value with a saved implicit key. -/
def valueSaved (k : KeySave) : Scan Unit := do
  rollIndent k.stats.read k.stats.lines k.stats.column true
  enqueue (.Token .Key) k.stats.read
  upd fun sc => { sc with simpleKeyAllowed := false }

/-- `/repo/src/scanner/mod.rs:614-632`: the checks of a value without one, in the block context. -/
def valueCheck : Scan Unit := do
  let s ← get
  if s.sc.context.isBlock then
    if !s.sc.simpleKeyAllowed then SO.fail .InvalidValue
    else rollHere true
  else return ()

/-- `/repo/src/scanner/mod.rs:610-637`: a value without a saved implicit key. -/
def valueBare : Scan Unit := do
  let s ← get
  valueCheck
  upd fun sc => { sc with simpleKeyAllowed := s.sc.context.isBlock }

/-- `/repo/src/scanner/mod.rs:585-638`: the match of `fetch_value`. -/
def valueKey : Option KeySave → Scan Unit
  | some k => if k.possible.allowed then valueSaved k else valueBare
  | none => valueBare

/-- `/repo/src/scanner/mod.rs:582-645`: `fetch_value`. -/
def fetchValue : Scan Unit := do
  let k ← takeKey
  valueKey k
  advance 1
  push .Value

/-- `/repo/src/scanner/mod.rs:647-672`: `fetch_flow_collection_start`. -/
def fetchFlowStart (map : Bool) : Scan Unit := do
  upd fun sc => { sc with context := sc.context.flowIncrement }
  advance 1
  push (if map then .FlowMappingStart else .FlowSequenceStart)
  saveKey
  upd fun sc => { sc with simpleKeyAllowed := true }

/-- `/repo/src/scanner/mod.rs:674-701`: `fetch_flow_collection_end`. -/
def fetchFlowEnd (map : Bool) : Scan Unit := do
  removeSavedKey
  let s ← get
  let x ← SO.lift s.sc.context.flowDecrement
  upd fun sc => { sc with context := x, simpleKeyAllowed := false }
  advance 1
  push (if map then .FlowMappingEnd else .FlowSequenceEnd)

/-- `/repo/src/scanner/mod.rs:703-722`: `fetch_flow_collection_entry`. -/
def fetchFlowEntry : Scan Unit := do
  removeSavedKey
  upd fun sc => { sc with simpleKeyAllowed := true }
  advance 1
  push .FlowEntry

/-- `/repo/src/scanner/mod.rs:743-759`: disarm `pop_zero_indent_sequence` for the current line. -/
def touchZero (stats : MStats) (x : Context) : Context :=
  match x.indents with
  | [] => x
  | e :: es =>
    if e.indent == stats.column && e.line < stats.lines then
      { x with indents := { e with line := stats.lines } :: es }
    else x

/-- `/repo/src/scanner/mod.rs:730-741`: the check of `fetch_block_collection_entry`. -/
def blockEntryCheck : Scan Unit := do
  let s ← get
  if s.sc.context.isBlock && s.sc.simpleKeyAllowed then rollHere false
  else SO.fail .InvalidBlockEntry

/-- `/repo/src/scanner/mod.rs:724-773`: `fetch_block_collection_entry`. -/
def fetchBlockEntry : Scan Unit := do
  blockEntryCheck
  upd fun sc => { sc with context := touchZero sc.stats sc.context }
  removeSavedKey
  upd fun sc => { sc with simpleKeyAllowed := true }
  advance 1
  push .BlockEntry

/-- `/repo/src/scanner/mod.rs:784-815`: `expire_stale_saved_key`. -/
def expireKey : Scan Unit := do
  let s ← get
  match s.sc.key with
  | none => return ()
  | some k =>
    if k.possible.allowed &&
        (k.stats.lines < s.sc.stats.lines || k.stats.read + 1024 < s.sc.stats.read) then
      if k.possible.required then SO.fail .MissingValue
      else upd fun sc => { sc with key := some { k with possible := .No } }
    else return ()

/-- `/repo/src/scanner/mod.rs:819-849`: `pop_zero_indent_sequence`. -/
def popZeroIndent : Scan Unit := SO.modify fun s =>
  match s.sc.context.indents with
  | [] => s
  | e :: es =>
    if e.line < s.sc.stats.lines && e.zeroIndented && e.kind == .BlockSequenceStart &&
        !startsWith s.buf b! '-' then
      { s with
        sc := { s.sc with context := { s.sc.context with indents := es, indent := e.indent } }
        out := s.out ++ [⟨.Token .BlockEnd, s.sc.stats.read⟩] }
    else s

/-- `/repo/src/scanner/mod.rs:931-950`: `Scanner::eat_whitespace`. -/
def eatWhitespace (opts : SFlags) : Scan Unit := do
  let c ← sub {} (eatWs opts true)
  upd fun sc => { sc with simpleKeyAllowed := if c.stats.lines ≠ 0 then true else sc.simpleKeyAllowed }
  let s ← get
  commit c.buf (s.sc.stats.add c.stats)

/-- `/repo/src/scanner/mod.rs:1093-1099`: `is_plain_safe_c` on the buffer from there. -/
def isPlainSafe (s : Str) (block : Bool) : Bool := block || !flowIndicator s

/-- `/repo/src/scanner/mod.rs:885-926`: `is_plain_scalar`; a `]` is only excluded at the end of
the buffer (line 912), as written. -/
def isPlainScalar (block : Bool) (s : Str) : Bool :=
  if isWhiteSpaceZ s then false
  else match s with
  | [] => false
  | b :: t =>
    if b = b! '%' || b = b! '&' || b = b! '*' || b = b! '!' || b = 0x27 || b = b! '"' || b = b! '{' ||
        b = b! '[' || b = b! '}' || (b = b! ']' && t.isEmpty) || b = b! ',' || b = b! '|' ||
        b = b! '>' || b = b! '#' || b = b! '@' || b = b! '`' then false
    else if (b = b! ':' || b = b! '?' || b = b! '-') && !isPlainSafe t block then false
    else true

/-- What `/repo/src/scanner/mod.rs:158-223` decides to fetch. -/
inductive Fetch where
  | directive | marker (start : Bool) | flowStart (map : Bool) | flowEnd (map : Bool) | flowEntry
  | blockEntry | explicitKey | value | anchor | tag | block (fold : Bool) | quoted | plain
  | unknown
  deriving DecidableEq, Repr

/-- `/repo/src/scanner/mod.rs:158-223`: the `match`, in its order. -/
def dispatch (x : Context) (column : Nat) (s : Str) : Fetch :=
  if startsWith s b! '%' && column == 0 then .directive
  else if startsMarker s && (column == 0 && isWhiteSpaceZ (s.drop 3)) then
    .marker (startsWith s b! '-')
  else if startsWith s b! '{' || startsWith s b! '[' then .flowStart (startsWith s b! '{')
  else if startsWith s b! '}' || startsWith s b! ']' then .flowEnd (startsWith s b! '}')
  else if startsWith s b! ',' then .flowEntry
  else if startsWith s b! '-' && isWhiteSpaceZ (s.drop 1) then .blockEntry
  else if startsWith s b! '?' && (x.isFlow || isWhiteSpaceZ (s.drop 1)) then .explicitKey
  else if startsWith s b! ':' && (isWhiteSpaceZ (s.drop 1) || x.isFlow) then .value
  else if startsWith s b! '&' || startsWith s b! '*' then .anchor
  else if startsWith s b! '!' then .tag
  else if (startsWith s b! '|' || startsWith s b! '>') && x.isBlock then .block (startsWith s b! '>')
  else if startsWith s 0x27 || startsWith s b! '"' then .quoted
  else if isPlainScalar x.isBlock s then .plain
  else .unknown

/-- `/repo/src/scanner/mod.rs:158-223`: the right hand sides. -/
def run (opts : SFlags) : Fetch → Scan Unit
  | .directive => fetchDirective opts
  | .marker start => fetchDocumentMarker start
  | .flowStart map => fetchFlowStart map
  | .flowEnd map => fetchFlowEnd map
  | .flowEntry => fetchFlowEntry
  | .blockEntry => fetchBlockEntry
  | .explicitKey => fetchExplicitKey
  | .value => fetchValue
  | .anchor => fetchAnchor opts
  | .tag => fetchTag opts
  | .block fold => fetchBlockScalar opts fold
  | .quoted => fetchFlowScalar opts
  | .plain => fetchPlainScalar opts
  | .unknown => SO.fail .UnknownDelimiter

/-- `/repo/src/scanner/mod.rs:145-223`: the end of the stream, or the next token. -/
def fetchNext (opts : SFlags) : Scan Unit := do
  let s ← get
  if s.buf.isEmpty || s.sc.state == .Done then fetchStreamEnd
  else do
    SO.lift (cache opts 4 s.buf)
    run opts (dispatch s.sc.context s.sc.stats.column s.buf)

/-- `/repo/src/scanner/mod.rs:134-143`: what precedes every token. -/
def prepare (opts : SFlags) : Scan Unit := do
  eatWhitespace opts
  expireKey
  let s ← get
  unrollIndent (some s.sc.stats.column)
  popZeroIndent

/-- `/repo/src/scanner/mod.rs:120-224`: `scan_next_token`. -/
def scanNextToken (opts : SFlags) : Scan Unit := do
  let s ← get
  if s.sc.state == .Start then fetchStreamStart
  else do
    prepare opts
    fetchNext opts

end Scan

/-- `/repo/src/scanner/key.rs:107-112`: `Key::possible`. -/
def Scanner.keyPossible (sc : Scanner) : Bool :=
  match sc.key with
  | some k => k.possible.allowed
  | none => false

/-- `/repo/src/scanner/mod.rs:89-105`: the loop of `scan_tokens`. The result has the tokens pushed
by this call, which are there whether it succeeded or not. `base.get(offset..)` is `None` when the
offset is out of range or off a character boundary; the loop then spins for ever. -/
def scanLoop (opts : SFlags) (base : Str) : Nat → Scanner → List TokenEntry →
    Out ScanError Unit × Scanner × List TokenEntry
  | 0, sc, out => (.diverge, sc, out)
  | fuel + 1, sc, out =>
    if sc.state ≠ .Done && (out.isEmpty || sc.keyPossible) then
      if isBoundary base sc.offset then
        match Scan.scanNextToken opts ⟨sc, base.drop sc.offset, out⟩ with
        | (.ok _, s) =>
          scanLoop opts base fuel { s.sc with offset := base.length - s.buf.length } s.out
        | (.err e, s) =>
          if e = .Extend then
            (.err e, { s.sc with offset := base.length - s.buf.length }, s.out)
          else (.err e, s.sc, s.out)
        | (.panic, s) => (.panic, s.sc, s.out)
        | (.diverge, s) => (.diverge, s.sc, s.out)
      else scanLoop opts base fuel sc out
    else (.ok (), sc, out)

/-- `/repo/src/scanner/mod.rs:79-108`: `scan_tokens`, with the tokens it pushes. The fuel suffices
whenever the code's loop ends: each step but the first and the last reads a byte of the buffer. -/
def scanTokens (opts : SFlags) (base : Str) (sc : Scanner) :
    Out ScanError Unit × Scanner × List TokenEntry :=
  scanLoop opts base (base.length + 3) sc []

/-- `/repo/src/reader/borrow.rs:52-63`: `BorrowReader::drive` on its text, as a step from scanner to
scanner. -/
def borrowDrive (opts : SFlags) (data : Str) (sc : Scanner) :
    Out ReaderError Unit × List TokenEntry × Scanner :=
  match scanTokens { opts with extendable := false } data sc with
  | (.ok _, sc, out) => (.ok (), out, sc)
  | (.err e, sc, out) => (.err (.Scanner e), out, sc)
  | (.panic, sc, out) => (.panic, out, sc)
  | (.diverge, sc, out) => (.diverge, out, sc)

/-- `/repo/src/scanner/scalar/flow.rs:359-369`, `/repo/src/scanner/scalar/plain.rs:449-460`,
`/repo/src/scanner/scalar/block.rs:758-769`: `Deferred::into_token`, dispatched by
`/repo/src/scanner/entry.rs:147-150,197-205`. -/
def Lazy.intoToken : Lazy → Out ScanError Token
  | .flow opts s stats single => do
    let (t, _) ← scanFlowEager opts single ⟨s, stats⟩
    .ok t
  | .plain opts s stats indent blk => do
    let (t, _) ← scanPlainEager opts indent blk ⟨s, stats⟩
    .ok t
  | .block opts s stats indent fold => do
    let (t, _) ← scanBlockEager opts indent fold ⟨s, stats⟩
    .ok t

end Yary
