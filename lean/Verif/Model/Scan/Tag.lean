import Verif.Model.Scan.Escape

/-! # Tags and tag directives

`/repo/src/scanner/tag.rs`. Whether a slice is borrowed or copied shows only in that
`Token::into_owned` is applied to a copied tag, which changes nothing for a tag or a tag
directive (`Token.intoOwned`). -/

namespace Yary

/-- `/repo/src/scanner/tag.rs:275-287`: the bytes any tag URI may contain. -/
def uriByte (b : Byte) : Bool :=
  (b! '&' ≤ b && b ≤ b! '+') || (b! '-' ≤ b && b ≤ b! '9') || (b! 'A' ≤ b && b ≤ b! 'Z') ||
    (b! 'a' ≤ b && b ≤ b! 'z') || b = b! '!' || b = b! '$' || b = b! ':' || b = b! ';' || b = b! '=' ||
    b = b! '?' || b = b! '@' || b = b! '_' || b = b! '~'

/-- `/repo/src/scanner/tag.rs:296`: the further bytes a verbatim tag may contain. -/
def verbatimByte (b : Byte) : Bool := b = b! ',' || b = b! '[' || b = b! ']'

/-- The state of `/repo/src/scanner/tag.rs:268-322`: the cursor, the scratch space, and whether
nothing was copied yet. -/
structure UriSt where
  cur : Cur
  scratch : Str := []
  canBorrow : Bool := true

/-- `/repo/src/scanner/tag.rs:289-293`: take one byte as it is. -/
def UriSt.push (st : UriSt) (b : Byte) : Out ScanError UriSt := do
  let c ← st.cur.adv 1
  .ok { st with cur := c, scratch := if st.canBorrow then st.scratch else st.scratch ++ [b] }

/-- `/repo/src/scanner/tag.rs:307-315`: take one percent-encoded codepoint. -/
def UriSt.percent (opts : SFlags) (base : Str) (st : UriSt) : Out ScanError UriSt := do
  let scratch :=
    if st.canBorrow then st.scratch ++ base.take (base.length - st.cur.buf.length)
    else st.scratch
  let w ← tagUriUnescape opts st.cur.buf
  let c ← st.cur.adv (3 * w.length)
  .ok { cur := c, scratch := scratch ++ w, canBorrow := false }

/-- `/repo/src/scanner/tag.rs:268-322`: the loop of `scan_tag_uri`. -/
def scanUriLoop (opts : SFlags) (verbatim : Bool) (base : Str) : Nat → UriSt → Out ScanError UriSt
  | 0, _ => .diverge
  | fuel + 1, st => do
    cache opts 1 st.cur.buf
    match st.cur.buf with
    | [] => .err .UnexpectedEOF
    | b :: _ =>
      if uriByte b || (verbatimByte b && verbatim) then do
        let st ← st.push b
        scanUriLoop opts verbatim base fuel st
      else if b = b! '%' then do
        let st ← st.percent opts base
        scanUriLoop opts verbatim base fuel st
      else .ok st

/-- `/repo/src/scanner/tag.rs:257-336`: `scan_tag_uri`: the URI and the rest. The caller's
`can_borrow` is true at every call. -/
def scanTagUri (opts : SFlags) (verbatim : Bool) (c : Cur) : Out ScanError (Str × Cur) := do
  let st ← scanUriLoop opts verbatim c.buf (c.buf.length + 1) { cur := c }
  if st.canBorrow then do
    let s ← slice c.buf 0 (c.buf.length - st.cur.buf.length)
    .ok (s, st.cur)
  else do
    let s ← fromUtf8Unwrap st.scratch
    .ok (s, st.cur)

/-- `/repo/src/scanner/tag.rs:396-402`: `TagHandle`. -/
inductive TagHandle where
  | Primary (h : Str)
  | Secondary (h : Str)
  | Named (h : Str)
  deriving DecidableEq, Repr

/-- `/repo/src/scanner/tag.rs:404-413`: `TagHandle::into_inner`. -/
def TagHandle.inner : TagHandle → Str
  | .Primary h | .Secondary h | .Named h => h

/-- `/repo/src/scanner/tag.rs:340-394`: `scan_tag_handle`. The code returns the handle's length
and leaves the buffer alone, having counted the handle into the statistics; the model returns the
length and the new statistics. -/
def scanTagHandle (opts : SFlags) (c : Cur) : Out ScanError (Option (TagHandle × Nat) × MStats) := do
  cache opts 1 c.buf
  match c.buf with
  | [] => .err .UnexpectedEOF
  | b :: t =>
    if b ≠ b! '!' then .err .InvalidTagHandle
    else do
      let n ← takeWhileLen opts isAlnum t
      cache opts 1 (c.buf.drop (1 + n))
      match c.buf.drop (1 + n) with
      | [] => .err .UnexpectedEOF
      | d :: _ =>
        if d = b! '!' then
          .ok (some (if n = 0 then .Secondary (c.buf.take (1 + n + 1))
                     else .Named (c.buf.take (1 + n + 1)), 1 + n + 1),
               c.stats.update (1 + n + 1) 0 (1 + n + 1))
        else if n = 0 && isWhiteSpace (c.buf.drop (1 + n)) then
          .ok (some (.Primary (c.buf.take 1), 1), c.stats.update 1 0 1)
        else .ok (none, c.stats)

/-- `/repo/src/scanner/tag.rs:111`: `isBlank!(~buffer, else InvalidTagPrefix)`. -/
def requireBlank : Str → Out ScanError Unit
  | [] => .err .UnexpectedEOF
  | b :: t => if isBlank (b :: t) then .ok () else .err .InvalidTagPrefix

/-- `/repo/src/scanner/tag.rs:123`: `isWhiteSpace!(~buffer, amt, else InvalidTagPrefix)`. -/
def requireWhiteSpace : Str → Out ScanError Unit
  | [] => .err .UnexpectedEOF
  | b :: t => if isWhiteSpace (b :: t) then .ok () else .err .InvalidTagPrefix

/-- `/repo/src/scanner/tag.rs:88-142`: `scan_tag_directive`. -/
def scanTagDirective (opts : SFlags) (c : Cur) : Out ScanError (Token × Cur) := do
  let (r, stats) ← scanTagHandle opts c
  match r with
  | none => .err .InvalidTagHandle
  | some (h, amt) => do
    let c ← Cur.skip ⟨c.buf, stats⟩ amt
    cache opts 1 c.buf
    requireBlank c.buf
    let c ← eatWs opts false c
    let (pfx, c) ← scanTagUri opts false c
    requireWhiteSpace c.buf
    .ok (.TagDirective h.inner pfx, c)

/-- `/repo/src/scanner/tag.rs:192`: `check!(~buffer, amt + 1 => b'>', else InvalidTagSuffix)` on
the buffer from there. -/
def requireClose : Str → Out ScanError Unit
  | [] => .err .UnexpectedEOF
  | b :: _ => if b = b! '>' then .ok () else .err .InvalidTagSuffix

/-- `/repo/src/scanner/tag.rs:181-197`: the verbatim case of `scan_node_tag`: the `>` is looked
for one byte behind the end of the URI, and neither `!<` nor the last byte taken is counted in the
statistics, as written. -/
def scanVerbatim (opts : SFlags) (c : Cur) : Out ScanError (Token × Cur) := do
  let c ← c.skip 2
  let (uri, r) ← scanTagUri opts true c
  cache opts 1 (r.buf.drop 1)
  requireClose (r.buf.drop 1)
  let c ← r.skip 1
  .ok (.Tag [] uri, c)

/-- `/repo/src/scanner/tag.rs:157-247`: `scan_node_tag`. -/
def scanNodeTag (opts : SFlags) (c : Cur) : Out ScanError (Token × Cur) := do
  cache opts 2 c.buf
  if [b! '!', b! '<'].isPrefixOf c.buf then scanVerbatim opts c
  else do
    let (r, stats) ← scanTagHandle opts c
    match r with
    | some (.Primary h, amt) => do
      let c ← Cur.skip ⟨c.buf, stats⟩ amt
      .ok (.Tag h [], c)
    | some (h, amt) => do
      let c ← Cur.skip ⟨c.buf, stats⟩ amt
      let (suffix, c) ← scanTagUri opts false c
      .ok (.Tag h.inner suffix, c)
    | none => do
      cache opts 1 c.buf
      let handle := c.buf.take 1
      let c ← c.adv 1
      let (suffix, c) ← scanTagUri opts false c
      .ok (.Tag handle suffix, c)

end Yary
