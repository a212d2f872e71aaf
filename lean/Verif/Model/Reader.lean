import Verif.Model.Token

/-!
# Reader and PeekReader (`/repo/src/reader/mod.rs`)

A `Read` implementation together with the `Scanner` it drives is an arbitrary state machine
here: `drive` takes the current state and says which entries it pushed on the queue (in order),
how it ended, and the new state. `/repo/src/reader/mod.rs:100-115` is the trait method; the trait
is sealed and implementations only push to the queue they are handed.
-/

namespace Yary

/-- `Read::drive` for a source with state `σ` (scanner and underlying reader). -/
abbrev Drive (σ : Type) := σ → Out ReaderError Unit × List TokenEntry × σ

/-- `/repo/src/reader/mod.rs:158-167`: `Reader`; scanner and `inner` are the source state. -/
structure Reader (σ : Type) where
  src : σ
  queue : Queue TokenEntry
  exhausted : Bool

/-- `/repo/src/reader/mod.rs:173-182`: `Reader::new`. -/
def Reader.new {σ : Type} (s : σ) : Reader σ := { src := s, queue := .new, exhausted := false }

/-- `/repo/src/reader/mod.rs:185-198`: `Reader::scan_tokens`. On an error `exhausted` keeps its
value. -/
def Reader.scanTokens {σ : Type} (drive : Drive σ) (r : Reader σ) :
    Out ReaderError Unit × Reader σ :=
  let start := r.queue.len
  match drive r.src with
  | (.ok (), pushed, src) =>
    let queue := pushed.foldl Queue.push r.queue
    (.ok (), { src, queue, exhausted := start == queue.len })
  | (out, pushed, src) =>
    (out, { r with src, queue := pushed.foldl Queue.push r.queue })

/-- `/repo/src/reader/mod.rs:200-203`: `Reader::is_exhausted`. -/
def Reader.isExhausted {σ : Type} (r : Reader σ) : Bool := r.exhausted && r.queue.isEmpty

/-- `/repo/src/reader/mod.rs:232-237`: `PeekReader`. -/
structure PeekReader (σ : Type) where
  peeked : Option TokenEntry
  reader : Reader σ

namespace PeekReader

variable {σ : Type}

/-- `/repo/src/reader/mod.rs:243-246`: `PeekReader::new`. -/
def new (s : σ) : PeekReader σ := { peeked := none, reader := .new s }

/-- `/repo/src/reader/mod.rs:295-313`: `PeekReader::take_next`. -/
def takeNext (drive : Drive σ) (p : PeekReader σ) : Out ReaderError Unit × PeekReader σ :=
  if p.peeked.isSome then (.ok (), p)
  else
    let (out, reader) :=
      if p.reader.queue.isEmpty then p.reader.scanTokens drive else (.ok (), p.reader)
    match out with
    | .ok () =>
      let (e, queue) := reader.queue.pop
      (.ok (), { peeked := e, reader := { reader with queue } })
    | out => (out, { p with reader })

/-- `/repo/src/reader/mod.rs:263-276`: `PeekReader::peek`. The returned `&mut` reference is only
read by the parser, so a value is returned. -/
def peek (drive : Drive σ) (p : PeekReader σ) :
    Out ReaderError (Option TokenEntry) × PeekReader σ :=
  match p.peeked with
  | some e => (.ok (some e), p)
  | none =>
    if !p.reader.isExhausted then
      match p.takeNext drive with
      | (.ok (), p) => (.ok p.peeked, p)
      | (.err e, p) => (.err e, p)
      | (.panic, p) => (.panic, p)
      | (.diverge, p) => (.diverge, p)
    else (.ok none, p)

/-- `/repo/src/reader/mod.rs:248-261`: `PeekReader::pop`. -/
def pop (drive : Drive σ) (p : PeekReader σ) :
    Out ReaderError (Option TokenEntry) × PeekReader σ :=
  match p.peeked with
  | some e => (.ok (some e), { p with peeked := none })
  | none =>
    if !p.reader.isExhausted then
      match p.takeNext drive with
      | (.ok (), p) => (.ok p.peeked, { p with peeked := none })
      | (.err e, p) => (.err e, p)
      | (.panic, p) => (.panic, p)
      | (.diverge, p) => (.diverge, p)
    else (.ok none, p)

/-- `/repo/src/reader/mod.rs:278-281`: `PeekReader::consume`. -/
def consume (p : PeekReader σ) : Bool × PeekReader σ :=
  (p.peeked.isSome, { p with peeked := none })

end PeekReader

end Yary
