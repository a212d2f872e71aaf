import Verif.Model.Reader
import Verif.Model.Scan.Scanner

/-! # Reading from a `std::io::Read`

`/repo/src/reader/owned.rs`. -/

namespace Yary

/-- `/repo/src/reader/owned.rs:164`, a `std::io::Read`: the bytes it delivers until a call of `read` returns
`Ok(0)` (`none`) or fails, and then again; when nothing is left every call returns `Ok(0)`. How many bytes
a single call delivers makes no difference to `read_to_end`, and `ErrorKind::Interrupted` none either.
Simplification: a source that never ends is not modelled. -/
abbrev Source := List (Str × Option IoError)

/-- `/repo/src/reader/owned.rs:232-239,241-272`: `read_fill` on `Take`, that is
`std::io::Read::read_to_end` of at most `cap` bytes. When it fails, the bytes read before are gone with
the buffer (195, 205). -/
def Source.take (cap : Nat) : Source → Out ReaderError Str × Source
  | [] => (.ok [], [])
  | (bytes, e) :: src =>
    if cap ≤ bytes.length then (.ok (bytes.take cap), (bytes.drop cap, e) :: src)
    else match e with
      | none => (.ok bytes, src)
      | some e => (.err (.IO e), src)

/-- `/repo/src/reader/owned.rs:159-183`: `Impl`, with the number of the buffers in `tail`. -/
structure Owned where
  head : Str := []
  tails : Nat := 0
  source : Source
  exhausted : Bool := false
  deriving DecidableEq, Repr

/-- `usize::next_power_of_two` (std). -/
def nextPowerOfTwo (n : Nat) : Nat := if n ≤ 1 then 1 else 2 ^ (Nat.log2 (n - 1) + 1)

/-- `/repo/src/reader/owned.rs:27,193-194`: the number of bytes the next buffer takes from the source. -/
def chunkSize (tails copyFrom : Nat) : Nat := nextPowerOfTwo (8 * 1024 * max tails 1 + copyFrom)

/-- `/repo/src/reader/owned.rs:190-216`: `refresh_buffer`, always called with a mark (76); the size of the
chunk is a parameter, `chunkSize` in the code. Simplification: there is one UTF-8 error. -/
def Owned.refresh (size : Nat → Nat → Nat) (o : Owned) (mark : Nat) : Out ReaderError Unit × Owned :=
  if o.head.length < mark then (.panic, o)
  else
    match o.source.take (size o.tails mark) with
    | (.ok bytes, source) =>
      let new := o.head.drop mark ++ bytes
      if validUtf8 new then
        (.ok (), { head := new, tails := o.tails + 1, source := source, exhausted := bytes.isEmpty })
      else (.err (.UTF8 {}), { o with source := source, exhausted := bytes.isEmpty })
    | (.err e, source) => (.err e, { o with source := source })
    | (.panic, source) => (.panic, { o with source := source })
    | (.diverge, source) => (.diverge, { o with source := source })

/-- `/repo/src/reader/owned.rs:55-85`: the loop of `drive_scanner`; the tokens scanned before a chunk
runs out stay in the queue. -/
def ownedLoop (size : Nat → Nat → Nat) (opts : SFlags) : Nat → Owned → Scanner → List TokenEntry →
    Out ReaderError Unit × List TokenEntry × (Owned × Scanner)
  | 0, o, sc, out => (.diverge, out, (o, sc))
  | fuel + 1, o, sc, out =>
    match scanTokens { opts with extendable := !o.exhausted } o.head sc with
    | (.ok _, sc, more) => (.ok (), out ++ more, (o, sc))
    | (.err .Extend, sc, more) =>
      match o.refresh size sc.offset with
      | (.ok _, o) => ownedLoop size opts fuel o { sc with offset := 0 } (out ++ more)
      | (.err e, o) => (.err e, out ++ more, (o, sc))
      | (.panic, o) => (.panic, out ++ more, (o, sc))
      | (.diverge, o) => (.diverge, out ++ more, (o, sc))
    | (.err e, sc, more) => (.err (.Scanner e), out ++ more, (o, sc))
    | (.panic, sc, more) => (.panic, out ++ more, (o, sc))
    | (.diverge, sc, more) => (.diverge, out ++ more, (o, sc))

/-- How many times a source can be read from before it has ended. -/
def Source.reads (src : Source) : Nat := (src.map fun b => b.1.length + 1).sum

/-- `/repo/src/reader/owned.rs:90-94`: `OwnedReader::drive`. The fuel suffices whenever the code's loop
ends. -/
def ownedDrive (size : Nat → Nat → Nat) (opts : SFlags) (s : Owned × Scanner) :
    Out ReaderError Unit × List TokenEntry × (Owned × Scanner) :=
  ownedLoop size opts (s.1.source.reads + 3) s.1 s.2 []

end Yary
