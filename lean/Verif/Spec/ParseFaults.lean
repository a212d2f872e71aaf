import Verif.Spec.Calls
import Verif.Spec.Content

/-! # What is wrong with the tokens

For each of the parser's errors, the tokens it stands for: those taken from the source so far, and the one that is next. -/

namespace Yary.Spec

variable {σ : Type}

/-- The collections that are open after a token, innermost first, each by the token that opened it. -/
def openWith (l : List Marker) (t : TokenEntry) : List Marker :=
  match t.marker with
  | .BlockSequenceStart | .BlockMappingStart | .FlowSequenceStart | .FlowMappingStart => t.marker :: l
  | .BlockEnd | .FlowSequenceEnd | .FlowMappingEnd => l.tail
  | _ => l

/-- The collections that are open after the tokens. -/
def openAfter (ts : List TokenEntry) : List Marker := ts.foldl openWith []

/-- The innermost collection that is open. -/
def inside (ts : List TokenEntry) : Option Marker := (openAfter ts).head?

/-- The last token. -/
def lastMarker (ts : List TokenEntry) : Option Marker := ts.getLast?.map TokenEntry.marker

/-- The tokens a node may end with. -/
def nodeEnds : List Marker :=
  [.Scalar, .Alias, .Anchor, .Tag, .BlockEnd, .FlowSequenceEnd, .FlowMappingEnd]

/-- The last token was the last one of a node. -/
def NodeBefore (ts : List TokenEntry) : Prop := ∃ m ∈ nodeEnds, lastMarker ts = some m

/-- A token a node may begin with; inside a flow collection no block collection begins. -/
def StartsNode (ts : List TokenEntry) (m : Marker) : Prop :=
  m ∈ [.Scalar, .Alias, .Anchor, .Tag, .FlowSequenceStart, .FlowMappingStart] ∨
  m ∈ [.BlockSequenceStart, .BlockMappingStart] ∧ inside ts ≠ some .FlowSequenceStart ∧
    inside ts ≠ some .FlowMappingStart

/-- `NodeDue ts m`: after the tokens `ts`, with `m` next, there must be a node: `m` does not show that it was left out. -/
inductive NodeDue (ts : List TokenEntry) (m : Marker) : Prop where
  /-- A document without a `---`. -/
  | bare (h : lastMarker ts = some .StreamStart ∨ lastMarker ts = some .DocumentEnd)
      (hm : m ∉ [.VersionDirective, .TagDirective, .DocumentStart, .StreamEnd])
  /-- A document with a `---`. -/
  | document (h : lastMarker ts = some .DocumentStart)
      (hm : m ∉ [.VersionDirective, .TagDirective, .DocumentStart, .DocumentEnd, .StreamEnd])
  /-- `- ` -/
  | entry (hi : inside ts = some .BlockSequenceStart) (h : lastMarker ts = some .BlockEntry) (hm : m ∉ [.BlockEntry, .BlockEnd])
  /-- `? ` or `: ` in a block mapping. -/
  | block (hi : inside ts = some .BlockMappingStart) (h : lastMarker ts = some .Key ∨ lastMarker ts = some .Value)
      (hm : m ∉ [.Key, .Value, .BlockEnd])
  /-- `[` or `,` in a flow sequence. -/
  | flowEntry (hi : inside ts = some .FlowSequenceStart)
      (h : lastMarker ts = some .FlowSequenceStart ∨ lastMarker ts = some .FlowEntry) (hm : m ∉ [.Key, .FlowSequenceEnd])
  /-- The key of a pair in a flow sequence. -/
  | pairKey (hi : inside ts = some .FlowSequenceStart) (h : lastMarker ts = some .Key)
      (hm : m ∉ [.Value, .FlowEntry, .FlowSequenceEnd])
  /-- Its value. -/
  | pairValue (hi : inside ts = some .FlowSequenceStart) (h : lastMarker ts = some .Value) (hm : m ∉ [.FlowEntry, .FlowSequenceEnd])
  /-- `{` or `,` in a flow mapping. -/
  | flowKey (hi : inside ts = some .FlowMappingStart)
      (h : lastMarker ts = some .FlowMappingStart ∨ lastMarker ts = some .FlowEntry) (hm : m ∉ [.Key, .FlowMappingEnd])
  /-- `?` in a flow mapping. -/
  | flowMarkedKey (hi : inside ts = some .FlowMappingStart) (h : lastMarker ts = some .Key)
      (hm : m ∉ [.Value, .FlowEntry, .FlowMappingEnd])
  /-- `:` in a flow mapping. -/
  | flowValue (hi : inside ts = some .FlowMappingStart) (h : lastMarker ts = some .Value) (hm : m ∉ [.FlowEntry, .FlowMappingEnd])

/-- `Misplaced ts m e`: the error `e` is what is wrong with a token like `m` after the tokens `ts`. -/
inductive Misplaced (ts : List TokenEntry) (m : Marker) : ParseError → Prop where
  /-- The first token is not the start of a stream. -/
  | stream (h : ts = []) (hm : m ≠ .StreamStart) : Misplaced ts m .CorruptStream
  /-- A second `%YAML` before a document. -/
  | version {before dirs : List TokenEntry} (h : ts = before ++ dirs) (hd : ∀ t ∈ dirs, isDirective t = true)
      (hv : versions dirs ≠ []) (hm : m = .VersionDirective) : Misplaced ts m .DuplicateVersion
  /-- No `---` after directives. -/
  | afterDirectives (h : lastMarker ts = some .VersionDirective ∨ lastMarker ts = some .TagDirective)
      (hm : m ∉ [.VersionDirective, .TagDirective, .DocumentStart]) : Misplaced ts m .MissingDocumentStart
  /-- No `---` and no `...` after the node of a document. -/
  | afterDocument (hi : inside ts = none) (h : NodeBefore ts) (hm : m ∉ [.VersionDirective, .TagDirective, .DocumentStart, .DocumentEnd, .StreamEnd]) :
      Misplaced ts m .MissingDocumentStart
  /-- No node where there must be one. -/
  | node (h : NodeDue ts m) (hm : ¬ StartsNode ts m) : Misplaced ts m .MissingNode
  /-- Neither a `-` nor the end of a block sequence. -/
  | entry (hi : inside ts = some .BlockSequenceStart) (h : lastMarker ts = some .BlockSequenceStart ∨ NodeBefore ts)
      (hm : m ∉ [.BlockEntry, .BlockEnd]) : Misplaced ts m .MissingBlockEntry
  /-- Neither a key nor the end of a block mapping; a second `:` is none. -/
  | key (hi : inside ts = some .BlockMappingStart)
      (h : lastMarker ts = some .BlockMappingStart ∨ NodeBefore ts ∨ lastMarker ts = some .Value ∧ m = .Value)
      (hm : m ∉ [.Key, .BlockEnd]) : Misplaced ts m .MissingKey
  /-- Neither a `,` nor a `]`. -/
  | sequence (hi : inside ts = some .FlowSequenceStart) (h : NodeBefore ts) (hm : m ∉ [.FlowEntry, .FlowSequenceEnd]) :
      Misplaced ts m .MissingFlowSequenceEntryOrEnd
  /-- Neither a `,` nor a `}`. -/
  | mapping (hi : inside ts = some .FlowMappingStart) (h : NodeBefore ts) (hm : m ∉ [.FlowEntry, .FlowMappingEnd]) :
      Misplaced ts m .MissingFlowMappingEntryOrEnd

/-- `Undefined es ts`: the last node of `ts` has a tag with a handle that the directives of its document do not define. -/
inductive Undefined (es : List Event) : List TokenEntry → Prop where
  | mk {before props content : List TokenEntry} {handle suffix : Str} {n : Nat} {d : Directives}
      (hp : ∀ t ∈ props, t.marker = .Anchor ∨ t.marker = .Tag) (ht : ⟨.Token (.Tag handle suffix), n⟩ ∈ props)
      (hc : content = [] ∨ ∃ c, content = [c] ∧ c.marker = .Scalar)
      (hd : activeDirectives es = some d) (hu : ¬ Defines d handle) : Undefined es (before ++ props ++ content)

/-- `Redefined ts`: the last of the tokens is a `%TAG` with a handle that is known, or was declared before for the same document. -/
inductive Redefined : List TokenEntry → Prop where
  | mk {before dirs : List TokenEntry} {handle pfx : Str} {n : Nat} (hd : ∀ t ∈ dirs, isDirective t = true)
      (hh : handle ∈ (knownTags ++ tagPairs dirs).map (·.1)) :
      Redefined (before ++ dirs ++ [⟨.Token (.TagDirective handle pfx), n⟩])

/-- `ParseFault drive es ts p e`: after the events `es`, made of the tokens `ts` (and of no more than those), the error `e` is what
is wrong with the tokens, or the source, that the reader `p` has left. -/
inductive ParseFault (drive : Drive σ) (es : List Event) (ts : List TokenEntry) (p : PeekReader σ) : ParseError → Prop where
  /-- The source fails. -/
  | source {e : ReaderError} {q : PeekReader σ} (h : p.peek drive = (.err e, q)) : ParseFault drive es ts p (.ofReader e)
  /-- The source ends before the end of the stream. -/
  | ends {q : PeekReader σ} (h : p.peek drive = (.ok none, q)) (he : ∀ t ∈ ts, t.marker ≠ .StreamEnd) : ParseFault drive es ts p .UnexpectedEOF
  | undefined (h : Undefined es ts) : ParseFault drive es ts p .UndefinedTag
  | redefined (h : Redefined ts) : ParseFault drive es ts p .DuplicateTagDirective
  | token {t : TokenEntry} {e : ParseError} (ht : Ahead drive p [t]) (h : Misplaced ts t.marker e) : ParseFault drive es ts p e

end Yary.Spec
