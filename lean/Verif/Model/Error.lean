import Verif.Model.Basic

/-!
# Errors

`/repo/src/scanner/error.rs`, `/repo/src/reader/error.rs`, `/repo/src/event/error.rs` and the
conversions in `/repo/src/error.rs`. Messages and contexts are in `Model/PublicError`.
-/

namespace Yary

/-- `/repo/src/scanner/error.rs:14-87`: `ScanError`. -/
inductive ScanError where
  | UnknownDirective | MissingMajor | MissingMinor | MissingValue | InvalidVersion
  | InvalidTagHandle | InvalidTagPrefix | InvalidTagSuffix | InvalidAnchorName
  | InvalidFlowScalar | InvalidPlainScalar | InvalidBlockScalar | InvalidBlockEntry
  | InvalidTab | InvalidKey | InvalidValue | UnknownEscape | UnknownDelimiter
  | UnexpectedEOF | IntOverflow | Extend
  deriving DecidableEq, Repr

/-- `std::str::Utf8Error`; its contents are irrelevant. -/
structure Utf8Error where
  deriving DecidableEq, Repr

/-- `std::io::ErrorKind`, as far as used: the three kinds this crate produces, and any other. -/
inductive IoErrorKind where
  | InvalidInput | InvalidData | UnexpectedEof | Other (code : Nat)
  deriving DecidableEq, Repr

/-- `std::io::Error` as reported by an `io::Read` implementation: an opaque identity and kind. -/
structure IoError where
  id : Nat
  kind : IoErrorKind
  deriving DecidableEq, Repr

/-- `/repo/src/reader/error.rs:21-33`: `ReaderError`. -/
inductive ReaderError where
  | UTF8 (e : Utf8Error)
  | IO (e : IoError)
  | Scanner (e : ScanError)
  deriving DecidableEq, Repr

/-- `/repo/src/event/error.rs:27-195`: `ParseError`. -/
inductive ParseError where
  | CorruptStream | DuplicateVersion | DuplicateTagDirective | UndefinedTag
  | MissingDocumentStart | MissingBlockEntry | MissingNode | MissingKey
  | MissingFlowSequenceEntryOrEnd | MissingFlowMappingEntryOrEnd | UnexpectedEOF
  | Scanner (e : ScanError)
  | UTF8 (e : Utf8Error)
  | IO (e : IoError)
  deriving DecidableEq, Repr

/-- `/repo/src/event/error.rs:205-216`: `From<ReaderError> for ParseError`. -/
def ParseError.ofReader : ReaderError → ParseError
  | .UTF8 e => .UTF8 e
  | .IO e => .IO e
  | .Scanner e => .Scanner e

/-- `/repo/src/error.rs`, module `internal`: `ErrorCode`. -/
inductive ErrorCode where
  | UnexpectedEOF | UnknownDirective | MissingMajor | MissingMinor | MissingValue
  | InvalidVersion | InvalidTagHandle | InvalidTagPrefix | InvalidTagSuffix
  | InvalidAnchorName | InvalidFlowScalar | InvalidPlainScalar | InvalidBlockScalar
  | InvalidBlockEntry | InvalidTab | InvalidKey | InvalidValue | UnknownEscape
  | UnknownDelimiter | IntOverflow | CorruptStream | DuplicateVersion
  | DuplicateTagDirective | UndefinedTag | MissingDocumentStart | MissingBlockEntry
  | MissingNode | MissingKey | MissingFlowSequenceEntryOrEnd | MissingFlowMappingEntryOrEnd
  deriving DecidableEq, Repr

/-- `/repo/src/error.rs`, module `internal`: `SourceError`. -/
inductive SourceError where
  | IO (e : IoError)
  | UTF8 (e : Utf8Error)
  deriving DecidableEq, Repr

/-- `/repo/src/error.rs`, module `internal`: `ErrorKind`. -/
inductive ErrorKind where
  | Code (e : ErrorCode)
  | Source (e : SourceError)
  deriving DecidableEq, Repr

/-- `/repo/src/error.rs`: `Category`, the public classification. -/
inductive Category where
  | IO | Syntax | Data | EOF
  deriving DecidableEq, Repr

/-- `/repo/src/scanner/error.rs:100-133`: `From<ScanError> for ErrorCode`. -/
def ErrorCode.ofScan : ScanError → ErrorCode
  | .UnknownDirective => .UnknownDirective
  | .MissingMajor => .MissingMajor
  | .MissingMinor => .MissingMinor
  | .MissingValue => .MissingValue
  | .InvalidVersion => .InvalidVersion
  | .InvalidTagHandle => .InvalidTagHandle
  | .InvalidTagPrefix => .InvalidTagPrefix
  | .InvalidTagSuffix => .InvalidTagSuffix
  | .InvalidAnchorName => .InvalidAnchorName
  | .InvalidFlowScalar => .InvalidFlowScalar
  | .InvalidPlainScalar => .InvalidPlainScalar
  | .InvalidBlockScalar => .InvalidBlockScalar
  | .InvalidBlockEntry => .InvalidBlockEntry
  | .InvalidTab => .InvalidTab
  | .InvalidKey => .InvalidKey
  | .InvalidValue => .InvalidValue
  | .UnknownEscape => .UnknownEscape
  | .UnknownDelimiter => .UnknownDelimiter
  | .UnexpectedEOF => .UnexpectedEOF
  | .IntOverflow => .IntOverflow
  | .Extend => .UnexpectedEOF

/-- `/repo/src/reader/error.rs:79-90`: `From<ReaderError> for ErrorKind`. -/
def ErrorKind.ofReader : ReaderError → ErrorKind
  | .UTF8 e => .Source (.UTF8 e)
  | .IO e => .Source (.IO e)
  | .Scanner e => .Code (ErrorCode.ofScan e)

/-- `/repo/src/event/error.rs:255-280`: `From<ParseError> for ErrorKind`. -/
def ErrorKind.ofParse : ParseError → ErrorKind
  | .CorruptStream => .Code .CorruptStream
  | .DuplicateVersion => .Code .DuplicateVersion
  | .DuplicateTagDirective => .Code .DuplicateTagDirective
  | .UndefinedTag => .Code .UndefinedTag
  | .MissingDocumentStart => .Code .MissingDocumentStart
  | .MissingBlockEntry => .Code .MissingBlockEntry
  | .MissingNode => .Code .MissingNode
  | .MissingKey => .Code .MissingKey
  | .MissingFlowSequenceEntryOrEnd => .Code .MissingFlowSequenceEntryOrEnd
  | .MissingFlowMappingEntryOrEnd => .Code .MissingFlowMappingEntryOrEnd
  | .UnexpectedEOF => .Code .UnexpectedEOF
  | .Scanner e => .Code (ErrorCode.ofScan e)
  | .UTF8 e => .Source (.UTF8 e)
  | .IO e => .Source (.IO e)

/-- `/repo/src/error.rs:612-653`: `From<ErrorCode> for Category`. -/
def Category.ofCode : ErrorCode → Category
  | .IntOverflow | .CorruptStream => .Data
  | .UnexpectedEOF => .EOF
  | _ => .Syntax

/-- `/repo/src/error.rs:722-732`: `From<&SourceError> for Category`. -/
def Category.ofSource : SourceError → Category
  | .IO _ => .IO
  | .UTF8 _ => .Data

/-- `/repo/src/error.rs:570-580`: `From<&ErrorKind> for Category`, i.e. `Error::classify`. -/
def Category.ofKind : ErrorKind → Category
  | .Code e => .ofCode e
  | .Source e => .ofSource e

/-- The `io::Error` made out of a crate error: either the original one or a new one of a kind
wrapping the crate error. -/
inductive IoResult where
  | original (e : IoError)
  | wrapped (kind : IoErrorKind) (e : ErrorKind)
  deriving DecidableEq, Repr

/-- `/repo/src/error.rs:551-568`: `From<Error> for std::io::Error`. -/
def IoResult.ofKind (k : ErrorKind) : Out Empty IoResult :=
  match k with
  | .Source (.IO e) => .ok (.original e)
  | k =>
    match Category.ofKind k with
    | .Syntax => .ok (.wrapped .InvalidInput k)
    | .Data => .ok (.wrapped .InvalidData k)
    | .EOF => .ok (.wrapped .UnexpectedEof k)
    | .IO => .panic

end Yary
