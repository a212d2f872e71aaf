import Verif.Model.Error
import Verif.Model.Queue

/-! # Stats, tokens, token entries

`/repo/src/scanner/stats.rs`, `/repo/src/token.rs`, `/repo/src/scanner/entry.rs`. -/

namespace Yary

/-- `/repo/src/scanner/stats.rs:20-28`: `MStats`. -/
structure MStats where
  read : Nat := 0
  lines : Nat := 0
  column : Nat := 0
  deriving DecidableEq, Repr

/-- `/repo/src/scanner/stats.rs:40-51`: `MStats::update`. -/
def MStats.update (m : MStats) (read lines column : Nat) : MStats :=
  { read := m.read + read
    lines := m.lines + lines
    column := if lines = 0 then m.column + column else column }

/-- `/repo/src/scanner/stats.rs:65-71`: `AddAssign`. -/
def MStats.add (m rhs : MStats) : MStats := m.update rhs.read rhs.lines rhs.column

/-- `/repo/src/scanner/flag.rs`: the two scanner flags (`O_EXTENDABLE`, `O_LAZY`). -/
structure SFlags where
  extendable : Bool := false
  lazy : Bool := false
  deriving DecidableEq, Repr

/-- `/repo/src/event/types.rs:574-580`: `StreamEncoding`. -/
inductive StreamEncoding where
  | UTF8
  deriving DecidableEq, Repr

/-- `/repo/src/event/types.rs:584-598`: `ScalarStyle`. -/
inductive ScalarStyle where
  | Plain | SingleQuote | DoubleQuote | Literal | Folded
  deriving DecidableEq, Repr

/-- `/repo/src/token.rs:9-56`: `Token`. Whether a slice is borrowed or owned is in `Model/Cow`,
not here. -/
inductive Token where
  | StreamStart (enc : StreamEncoding)
  | StreamEnd
  | VersionDirective (major minor : Nat)
  | TagDirective (handle pfx : Str)
  | DocumentStart
  | DocumentEnd
  | BlockSequenceStart
  | BlockMappingStart
  | BlockEnd
  | FlowSequenceStart
  | FlowSequenceEnd
  | FlowMappingStart
  | FlowMappingEnd
  | BlockEntry
  | FlowEntry
  | Key
  | Value
  | Alias (name : Str)
  | Anchor (name : Str)
  | Tag (handle suffix : Str)
  | Scalar (data : Str) (style : ScalarStyle)
  deriving DecidableEq, Repr

/-- `/repo/src/token.rs:97-143`: `Marker`. -/
inductive Marker where
  | StreamStart | StreamEnd | VersionDirective | TagDirective | DocumentStart | DocumentEnd
  | BlockSequenceStart | BlockMappingStart | BlockEnd | FlowSequenceStart | FlowSequenceEnd
  | FlowMappingStart | FlowMappingEnd | BlockEntry | FlowEntry | Key | Value | Alias | Anchor
  | Tag | Scalar
  deriving DecidableEq, Repr

/-- `/repo/src/token.rs:146-177`: `Marker::from_token`. -/
def Marker.ofToken : Token → Marker
  | .StreamStart _ => .StreamStart
  | .StreamEnd => .StreamEnd
  | .VersionDirective .. => .VersionDirective
  | .TagDirective .. => .TagDirective
  | .DocumentStart => .DocumentStart
  | .DocumentEnd => .DocumentEnd
  | .BlockSequenceStart => .BlockSequenceStart
  | .BlockMappingStart => .BlockMappingStart
  | .BlockEnd => .BlockEnd
  | .FlowSequenceStart => .FlowSequenceStart
  | .FlowSequenceEnd => .FlowSequenceEnd
  | .FlowMappingStart => .FlowMappingStart
  | .FlowMappingEnd => .FlowMappingEnd
  | .BlockEntry => .BlockEntry
  | .FlowEntry => .FlowEntry
  | .Key => .Key
  | .Value => .Value
  | .Alias _ => .Alias
  | .Anchor _ => .Anchor
  | .Tag .. => .Tag
  | .Scalar .. => .Scalar

/-- `/repo/src/token.rs:60-95`: `Token::into_owned`, lines 73-74 as written. -/
def Token.intoOwned : Token → Token
  | .BlockSequenceStart => .FlowSequenceStart
  | .BlockMappingStart => .FlowMappingStart
  | t => t

/-- `/repo/src/scanner/entry.rs:116-190`: `Lazy`, an unevaluated scalar: the three `Deferred`
structs of `/repo/src/scanner/scalar/{flow,plain,block}.rs`. -/
inductive Lazy where
  | flow (opts : SFlags) (slice : Str) (stats : MStats) (single : Bool)
  | plain (opts : SFlags) (slice : Str) (stats : MStats) (indent : Nat) (blockContext : Bool)
  | block (opts : SFlags) (slice : Str) (stats : MStats) (indent : Nat) (fold : Bool)
  deriving DecidableEq, Repr

/-- `/repo/src/scanner/entry.rs:88-93`: `MaybeToken`. -/
inductive MaybeToken where
  | Token (t : Token)
  | Deferred (l : Lazy)
  deriving DecidableEq, Repr

/-- `/repo/src/scanner/entry.rs:97-104`: `MaybeToken::marker`; every `Lazy` is a scalar. -/
def MaybeToken.marker : MaybeToken → Marker
  | .Token t => .ofToken t
  | .Deferred _ => .Scalar

/-- `/repo/src/scanner/entry.rs:22-27`: `TokenEntry`. -/
structure TokenEntry where
  wrap : MaybeToken
  readAt : Nat
  deriving DecidableEq, Repr

/-- `/repo/src/scanner/entry.rs:46-49`: `TokenEntry::marker`. -/
def TokenEntry.marker (e : TokenEntry) : Marker := e.wrap.marker

/-- `/repo/src/scanner/entry.rs:80-86`: `Ord for TokenEntry`: the position only. -/
instance : Ord TokenEntry := ⟨compareOn TokenEntry.readAt⟩

instance : Std.TransOrd TokenEntry := inferInstanceAs (Std.TransCmp (compareOn TokenEntry.readAt))

end Yary
