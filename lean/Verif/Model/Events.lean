import Verif.Model.Parser
import Verif.Model.Flag
import Verif.Model.PublicError
import Verif.Model.Scan.Owned
import Verif.Spec.Utf8

/-! # The public functions (`/repo/src/reader/mod.rs:38-98`, `/repo/src/event/mod.rs`)

A read source is a text or a `std::io::Read`; an event stream is a parser bound to a peekable reader of the tokens of a source. -/

namespace Yary

/-- `/repo/src/reader/borrow.rs:16-21`: `BorrowReader`. -/
structure BorrowReader where
  data : Str
  deriving DecidableEq, Repr

/-- `/repo/src/reader/mod.rs:50-53`: `from_utf8`; the argument is the text of the `&str`. -/
def fromUtf8 (text : List Char) : BorrowReader := ⟨Spec.utf8 text⟩

/-- `/repo/src/reader/mod.rs:95-98` and `/repo/src/reader/borrow.rs:39-44`: `try_from_bytes`. -/
def tryFromBytes (slice : Str) : Out PublicError BorrowReader :=
  if validUtf8 slice then .ok ⟨slice⟩ else .err (.ofReader (.UTF8 {}))

/-- `/repo/src/reader/mod.rs:70-75` and `/repo/src/reader/owned.rs:41-48,112-119,170-183`: `from_read`. -/
def fromRead (src : Source) : Owned := { source := src }

/-- `/repo/src/event/mod.rs:204-208`: `Events`: the parser and the reader it is bound to. -/
abbrev Events (σ : Type) := PS σ

namespace Events

/-- `/repo/src/event/mod.rs:233-240` with `/repo/src/reader/borrow.rs:54-62`: `Events::new` on a text: its reader's source is a
fresh scanner. -/
def ofText : Events Scanner := { parser := Parser.new, tokens := PeekReader.new {} }

/-- The tokens an event stream on a text is driven by: `Events::new` passes on the flags (235). -/
def textDrive (src : BorrowReader) (f : Flags) : Drive Scanner := borrowDrive f.asScanner src.data

/-- `/repo/src/event/mod.rs:233-240` with `/repo/src/reader/owned.rs:90-94`: `Events::new` on a `std::io::Read`: a fresh scanner, and
the source as it is; nothing tells whether another stream has read from it. -/
def ofRead (src : Owned) : Events (Owned × Scanner) := { parser := Parser.new, tokens := PeekReader.new (src, {}) }

/-- As `textDrive`. -/
def readDrive (f : Flags) : Drive (Owned × Scanner) := ownedDrive chunkSize f.asScanner

/-- `/repo/src/reader/owned.rs:104-157`: the source is shared, and changed through a shared reference (`UnsafeCell`): as a stream leaves it. -/
def sourceAfter (s : Events (Owned × Scanner)) : Owned := s.tokens.reader.src.1

/-- `/repo/src/event/mod.rs:318-337,360-379`: `next` of both iterators, with the error the user sees. -/
def next {σ : Type} (drive : Drive σ) (fuel : Nat) (s : Events σ) : Out PublicError (Option Event) × Events σ :=
  let r := Parser.nextEvent drive fuel s
  (r.1.mapErr .ofParse, r.2)

end Events

end Yary
