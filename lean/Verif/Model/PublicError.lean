import Verif.Model.Error
import Verif.Model.Scalar
import Verif.Model.Scan.Scanner

/-!
# The public error type (`/repo/src/error.rs`)

`Error` boxes `internal::Error`; the box is left out. How a `std::io::Error` or a `Utf8Error` is shown is a parameter.
-/

namespace Yary

/-- `/repo/src/error.rs:24-29,124-135`: `Error`, with what is inside. -/
structure PublicError where
  kind : ErrorKind
  at_ : Nat
  line : Nat
  column : Nat
  deriving DecidableEq, Repr

namespace PublicError

/-- `/repo/src/error.rs:151-164`: `with_context`. -/
def withContext (kind : ErrorKind) (at_ line column : Nat) : PublicError := ⟨kind, at_, line, column⟩

/-- `/repo/src/error.rs:143-148`: `new`, and `From<T> for Error` (541-549). -/
def new (kind : ErrorKind) : PublicError := withContext kind 0 0 0

/-- `/repo/src/error.rs:200-205` and 76-79: `has_context`. -/
def hasContext (e : PublicError) : Bool := e.line != 0

/-- `/repo/src/error.rs:208-211` and 62-65: `classify`. -/
def classify (e : PublicError) : Category := .ofKind e.kind

/-- `/repo/src/scanner/error.rs:135-141`: `From<ScanError> for Error`: `mkError!(err, CODE)`. -/
def ofScan (e : ScanError) : PublicError := .new (.Code (.ofScan e))

/-- `/repo/src/reader/error.rs:91-97`: `From<ReaderError> for Error`: `mkError!(err, KIND)`. -/
def ofReader (e : ReaderError) : PublicError := .new (.ofReader e)

/-- `/repo/src/event/error.rs:278-284`: `From<ParseError> for Error`: `mkError!(err, KIND)`. -/
def ofParse (e : ParseError) : PublicError := .new (.ofParse e)

end PublicError

/-- `/repo/src/error.rs:663-718`: `Display for ErrorCode`. -/
def ErrorCode.message : ErrorCode → String
  | .UnexpectedEOF => "unexpected EOF"
  | .UnknownDirective => "unknown YAML directive"
  | .MissingMajor => "%YAML directive missing major version"
  | .MissingMinor => "%YAML directive missing minor version"
  | .MissingValue => "missing YAML mapping value"
  | .InvalidVersion => "%YAML directive is invalid"
  | .InvalidTagHandle => "node tag handle is not one of !, !!, or ![a-zA-Z0-9]+!"
  | .InvalidTagPrefix => "%TAG directive prefix is invalid"
  | .InvalidTagSuffix => "node tag suffix is invalid"
  | .InvalidAnchorName => "node anchor or alias contains invalid characters"
  | .InvalidFlowScalar => "flow scalar contains invalid characters"
  | .InvalidPlainScalar => "plain scalar contains invalid characters"
  | .InvalidBlockScalar => "block scalar contains invalid characters"
  | .InvalidBlockEntry => "block entry is not allowed in this context"
  | .InvalidTab => "indentation contained a tab character"
  | .InvalidKey => "key node is not allowed in this context"
  | .InvalidValue => "value node is not allowed in this context"
  | .UnknownEscape => "unknown escape sequence"
  | .UnknownDelimiter => "unknown token"
  | .IntOverflow => "integer overflow while parsing"
  | .CorruptStream => "invalid or corrupt yaml stream"
  | .DuplicateVersion => "duplicate %YAML directive found in a document"
  | .DuplicateTagDirective => "duplicate %TAG directive for a handle found in a document"
  | .UndefinedTag => "undefined node tag found"
  | .MissingDocumentStart => "missing document start or end indicator"
  | .MissingBlockEntry => "block entry was expected"
  | .MissingNode => "node was expected"
  | .MissingKey => "key node was expected"
  | .MissingFlowSequenceEntryOrEnd => "missing flow sequence delimiter ',' or ']'"
  | .MissingFlowMappingEntryOrEnd => "missing flow mapping delimiter ',' or '}'"

/-- `/repo/src/error.rs:582-592,734-744`: `Display` for `ErrorKind` and `SourceError`; `io` and `utf8` are those of `std`. -/
def ErrorKind.message (io : IoError → String) (utf8 : Utf8Error → String) : ErrorKind → String
  | .Code e => e.message
  | .Source (.IO e) => io e
  | .Source (.UTF8 e) => utf8 e

/-- `/repo/src/error.rs:505-523,857-863`: `Display for Error`. -/
def PublicError.message (io : IoError → String) (utf8 : Utf8Error → String) (e : PublicError) : String :=
  if e.hasContext then
    s!"{e.kind.message io utf8}, on line {e.line}, column {e.column}, at index {e.at_}"
  else e.kind.message io utf8

/-- What `source` can lead to. -/
inductive Cause where
  | io (e : IoError)
  | utf8 (e : Utf8Error)
  deriving DecidableEq, Repr

/-- `/repo/src/error.rs:594`: `StdError for ErrorKind`: `source` is the default, `None`. (The one for `SourceError`, 746-756, is not called.) -/
def ErrorKind.cause : ErrorKind → Option Cause := fun _ => none

/-- `/repo/src/error.rs:525-531,865-871`: `source`. -/
def PublicError.cause (e : PublicError) : Option Cause := e.kind.cause

/-- `/repo/src/event/types.rs:426-434`: `ScalarLazy::evaluate_scalar`; what is not a scalar is `unreachable!`. -/
def Lazy.evaluateScalar (l : Lazy) : Out ScanError Scalar :=
  match l.intoToken with
  | .ok (.Scalar data style) => .ok ⟨data, style⟩
  | .ok _ => .panic
  | .err e => .err e
  | .panic => .panic
  | .diverge => .diverge

/-- `map_err(Into::into)`. -/
def Out.mapErr {ε ε' α : Type} (f : ε → ε') : Out ε α → Out ε' α
  | .ok a => .ok a
  | .err e => .err (f e)
  | .panic => .panic
  | .diverge => .diverge

/-- `/repo/src/event/types.rs:212-215,228-231,416-419`: `evaluate` of `ScalarLike` and of `ScalarLazy`, and `evaluate_by_ref`. -/
def ScalarLike.value (s : ScalarLike) : Out PublicError Scalar := (s.evaluate Lazy.evaluateScalar).mapErr .ofScan

end Yary
