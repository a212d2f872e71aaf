import Verif.Model.Scan.Scanner

/-! # Which contents of tokens are borrowed

`/repo/src/event/types.rs:17-25`: `Slice` is a `Cow`, borrowed from the text or owned. The scanning functions of the model
return the contents alone; here is which of the two they are. Each definition follows the function it names up to the place
where the `Cow` is made. -/

namespace Yary

/-- `/repo/src/event/types.rs:25`: `Slice`. What is borrowed is the range of the text from the start of the token on. -/
inductive Cow where
  | Borrowed (start stop : Nat)
  | Owned (s : Str)
  deriving DecidableEq, Repr

/-- What it dereferences to. -/
def Cow.value (text : Str) : Cow → Str
  | .Borrowed a b => (text.drop a).take (b - a)
  | .Owned s => s

/-- `Cow::into_owned` (std), as `/repo/src/token.rs` `Token::into_owned` applies it. -/
def Cow.intoOwned (text : Str) (c : Cow) : Cow := .Owned (c.value text)

/-- `/repo/src/scanner/scalar/flow.rs:44-243`: the `Cow` of `scan_flow_scalar_eager`. -/
def flowCow (opts : SFlags) (single : Bool) (c : Cur) : Out ScanError (List Cow) := do
  cache opts 1 c.buf
  let c1 ← c.adv 1
  let st ← flowLoop opts c.buf single (c.buf.length + 1) { cur := c1 }
  if st.canBorrow then .ok [.Borrowed 1 (c.buf.length - st.cur.buf.length)]
  else .ok [.Owned st.scratch]

/-- `/repo/src/scanner/scalar/plain.rs:47-248`: the `Cow` of `scan_plain_scalar_eager`. -/
def plainCow (opts : SFlags) (indent : Nat) (block : Bool) (c : Cur) : Out ScanError (List Cow) := do
  let st ← plainLoop opts c.buf indent block (c.buf.length + 1) { cur := c, scalarStats := c.stats }
  if st.canBorrow then .ok [.Borrowed 0 (st.scalarStats.read - c.stats.read)]
  else do
    let s ← truncEnd st.scratch (st.whitespace + st.lines)
    .ok [.Owned s]

/-- `/repo/src/scanner/scalar/block.rs:511-538`: the range `scan_chomp` borrows. -/
def chompCow (base : Str) (style : ChompStyle) (start stop lines : Nat) : Cow :=
  match style with
  | .Clip => if 0 < lines then .Borrowed start (stop + widthOf ((base.drop stop).drop 1)) else .Borrowed start stop
  | .Strip => .Borrowed start stop
  | .Keep => .Borrowed start (stop + lines)

/-- `/repo/src/scanner/scalar/block.rs:88-301,494-591`: the `Cow` of `scan_block_scalar_eager`. -/
def blockCow (opts : SFlags) (baseIndent : Nat) (fold : Bool) (c : Cur) : Out ScanError (List Cow) := do
  let (chomp, explicit, c1) ← blockHeader opts c
  let d ← blockIndent opts explicit baseIndent c1
  let st ← blockBegin c.stats.read d
  let st ← blockLines opts c.buf c.stats.read fold d.indent (c.buf.length + 1) st
  if st.canBorrow && !(chomp = .Keep && 1 < st.lines) then .ok [chompCow c.buf chomp st.start st.stop st.lines]
  else do
    let s ← scanChomp c.buf chomp st
    .ok [.Owned s]

/-- `/repo/src/scanner/anchor.rs:17-57`: the `Cow` of `scan_anchor`. -/
def anchorCow (opts : SFlags) (c : Cur) : Out ScanError (List Cow) := do
  let c ← c.adv 1
  let n ← takeWhileLen opts isAlnum c.buf
  .ok [.Borrowed 1 (1 + n)]

/-- `/repo/src/scanner/tag.rs:257-336`: the `Cow` of `scan_tag_uri`; `text` is the text from the start of the token on. -/
def uriCow (opts : SFlags) (verbatim : Bool) (text : Str) (c : Cur) : Out ScanError Cow := do
  let st ← scanUriLoop opts verbatim c.buf (c.buf.length + 1) { cur := c }
  if st.canBorrow then .ok (.Borrowed (text.length - c.buf.length) (text.length - st.cur.buf.length))
  else .ok (.Owned st.scratch)

/-- `/repo/src/scanner/tag.rs:125-137,434-445`: `assemble_tag`, and the same for directives: if the suffix is a copy,
so is the handle. -/
def assembleTag (text : Str) (handle suffix : Cow) : List Cow :=
  match suffix with
  | .Borrowed a b => [handle, .Borrowed a b]
  | .Owned s => [handle.intoOwned text, .Owned s]

/-- `/repo/src/scanner/tag.rs:157-247`: the `Cow`s of `scan_node_tag`. -/
def tagCows (opts : SFlags) (c : Cur) : Out ScanError (List Cow) := do
  if [b! '!', b! '<'].isPrefixOf c.buf then do
    let c1 ← c.skip 2
    let uri ← uriCow opts true c.buf c1
    .ok (assembleTag c.buf (.Borrowed 2 2) uri)
  else do
    let (r, stats) ← scanTagHandle opts c
    match r with
    | some (.Primary _, _) => .ok [.Borrowed 0 1, .Borrowed 0 0]
    | some (_, amt) => do
      let c1 ← Cur.skip ⟨c.buf, stats⟩ amt
      let suffix ← uriCow opts false c.buf c1
      .ok (assembleTag c.buf (.Borrowed 0 amt) suffix)
    | none => do
      let c1 ← c.adv 1
      let suffix ← uriCow opts false c.buf c1
      .ok (assembleTag c.buf (.Borrowed 0 1) suffix)

/-- `/repo/src/scanner/tag.rs:88-142`: the `Cow`s of `scan_tag_directive`; `text` is the text from the start of the
directive on. -/
def tagDirectiveCows (opts : SFlags) (text : Str) (c : Cur) : Out ScanError (List Cow) := do
  let (r, stats) ← scanTagHandle opts c
  match r with
  | none => .err .InvalidTagHandle
  | some (_, amt) => do
    let c1 ← Cur.skip ⟨c.buf, stats⟩ amt
    let c2 ← eatWs opts false c1
    let pfx ← uriCow opts false text c2
    .ok (assembleTag text (.Borrowed (text.length - c.buf.length) (text.length - c.buf.length + amt)) pfx)

/-- `/repo/src/scanner/mod.rs:303-326` and `/repo/src/scanner/directive.rs:20-64`: the `Cow`s of a directive. -/
def directiveCows (opts : SFlags) (c : Cur) : Out ScanError (List Cow) := do
  let kind ← DirectiveKind.new (c.buf.drop 1)
  let c1 ← c.adv (1 + kind.len)
  match kind with
  | .Version => .ok []
  | .Tag => do
    let c2 ← eatWs opts false c1
    tagDirectiveCows opts c.buf c2

/-- `/repo/src/scanner/mod.rs:296-510`: the `Cow`s of the token that a fetch adds, as `Scan.run`. -/
def fetchCows (opts : SFlags) (s : SS) : Scan.Fetch → Out ScanError (List Cow)
  | .directive => directiveCows opts ⟨s.buf, {}⟩
  | .anchor => anchorCow opts ⟨s.buf, {}⟩
  | .tag => tagCows opts ⟨s.buf, {}⟩
  | .block fold => blockCow opts (s.sc.context.level.getD 0) fold ⟨s.buf, s.sc.stats⟩
  | .quoted => flowCow opts (startsWith s.buf 0x27) ⟨s.buf, {}⟩
  | .plain => plainCow opts (levelSucc s.sc.context.level) s.sc.context.isBlock ⟨s.buf, s.sc.stats⟩
  | _ => .ok []

/-- `/repo/src/scanner/mod.rs:120-224`: the `Cow`s of the token that a step, which does not defer scalars, adds. -/
def Scan.cows (opts : SFlags) (s : SS) : Out ScanError (List Cow) :=
  if s.sc.state == .Start then .ok []
  else match Scan.prepare opts s with
  | (.ok _, s1) =>
    if s1.buf.isEmpty || s1.sc.state == .Done then .ok []
    else fetchCows opts s1 (Scan.dispatch s1.sc.context s1.sc.stats.column s1.buf)
  | (.err e, _) => .err e
  | (.panic, _) => .panic
  | (.diverge, _) => .diverge

end Yary
