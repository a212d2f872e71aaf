import Verif.Model.Reader
import Verif.Model.Event

/-!
# The event parser (`/repo/src/event/parser/mod.rs`)

Every handler is a computation on the parser and the token stream it is bound to. `fuel` bounds
each unbounded loop; running out of it is the `diverge` outcome. `debug_assert!`s are not
modelled (they are absent from release builds).
-/

namespace Yary

/-- `/repo/src/event/parser/mod.rs:77-84`: `Parser`. -/
structure Parser where
  state : StateMachine
  directives : Directives
  done : Bool
  deriving DecidableEq, Repr

/-- `/repo/src/event/parser/mod.rs:90-97`: `Parser::new`. -/
def Parser.new : Parser :=
  { state := { top := .StreamStart, stack := [] }, directives := .default, done := false }

/-- The parser and the `Tokens` it is bound to. -/
structure PS (σ : Type) where
  parser : Parser
  tokens : PeekReader σ

/-- A handler: `fn(&mut self, tokens: &mut Tokens) -> Result<α>`. -/
abbrev PM (σ : Type) (α : Type) := SO (PS σ) ParseError α

namespace PM

variable {σ : Type}

/-- Lift a `ReaderResult` computation on the tokens (`map_err(Into::into)`). -/
def onTokens {α : Type} (f : PeekReader σ → Out ReaderError α × PeekReader σ) : PM σ α := fun s =>
  match f s.tokens with
  | (.ok a, t) => (.ok a, { s with tokens := t })
  | (.err e, t) => (.err (.ofReader e), { s with tokens := t })
  | (.panic, t) => (.panic, { s with tokens := t })
  | (.diverge, t) => (.diverge, { s with tokens := t })

/-- `peek!(@~ tokens)`: `/repo/src/event/parser/macros.rs:32-37`; the entry itself is returned,
callers use its marker. -/
def peekMaybe (drive : Drive σ) : PM σ (Option TokenEntry) := onTokens (PeekReader.peek drive)

/-- `peek!(tokens)` and `peek!(~tokens)`: `/repo/src/event/parser/macros.rs:17-31`; the entry
itself is returned, callers use its `read_at` (as start and as end) and its marker. -/
def peek (drive : Drive σ) : PM σ TokenEntry := do
  match ← peekMaybe drive with
  | some e => pure e
  | none => SO.fail .UnexpectedEOF

/-- `pop!(tokens)`: `/repo/src/event/parser/macros.rs:46-53`. -/
def pop (drive : Drive σ) : PM σ TokenEntry := do
  match ← onTokens (PeekReader.pop drive) with
  | some e => pure e
  | none => SO.fail .UnexpectedEOF

/-- `state!` operations on the parser. -/
def onState (f : StateMachine → StateMachine) : PM σ Unit :=
  SO.modify fun s => { s with parser := { s.parser with state := f s.parser.state } }

/-- `state!(~self, -> s)`. -/
def setTop (st : State) : PM σ Unit := onState (·.setTop st)
/-- `state!(~self, >> s)`. -/
def pushState (st : State) : PM σ Unit := onState (·.push st)
/-- `state!(~self, << None)`. -/
def popState : PM σ Unit := onState (·.pop)

end PM

open PM

namespace Parser

variable {σ : Type}

/-- `consume!(tokens, StreamStart)`: `/repo/src/event/parser/macros.rs:111-120,130-145`. -/
def consumeStreamStart (drive : Drive σ) : PM σ (Nat × StreamEncoding) := do
  let e ← pop drive
  match e.wrap with
  | .Token (.StreamStart enc) => pure (e.readAt, enc)
  | _ => SO.panic

/-- `consume!(tokens, StreamEnd)`: `/repo/src/event/parser/macros.rs:146-151`. -/
def consumeStreamEnd (drive : Drive σ) : PM σ Nat := do
  let e ← pop drive
  match e.wrap with
  | .Token .StreamEnd => pure e.readAt
  | _ => SO.panic

/-- `consume!(tokens, VersionDirective)`: `/repo/src/event/parser/macros.rs:152-157`. -/
def consumeVersion (drive : Drive σ) : PM σ (Nat × Version) := do
  let e ← pop drive
  match e.wrap with
  | .Token (.VersionDirective major minor) => pure (e.readAt, { major, minor })
  | _ => SO.panic

/-- `consume!(tokens, TagDirective)`: `/repo/src/event/parser/macros.rs:158-163`. -/
def consumeTagDirective (drive : Drive σ) : PM σ (Nat × Str × Str) := do
  let e ← pop drive
  match e.wrap with
  | .Token (.TagDirective handle pfx) => pure (e.readAt, handle, pfx)
  | _ => SO.panic

/-- `consume!(tokens, Alias)`: `/repo/src/event/parser/macros.rs:164-169`. -/
def consumeAlias (drive : Drive σ) : PM σ (Nat × Str) := do
  let e ← pop drive
  match e.wrap with
  | .Token (.Alias name) => pure (e.readAt, name)
  | _ => SO.panic

/-- `consume!(tokens, Anchor)`: `/repo/src/event/parser/macros.rs:170-175`. -/
def consumeAnchor (drive : Drive σ) : PM σ (Nat × Str) := do
  let e ← pop drive
  match e.wrap with
  | .Token (.Anchor name) => pure (e.readAt, name)
  | _ => SO.panic

/-- `consume!(tokens, Tag)`: `/repo/src/event/parser/macros.rs:176-181`. -/
def consumeTag (drive : Drive σ) : PM σ (Nat × Str × Str) := do
  let e ← pop drive
  match e.wrap with
  | .Token (.Tag handle suffix) => pure (e.readAt, handle, suffix)
  | _ => SO.panic

/-- `consume!(tokens, Scalar)`: `/repo/src/event/parser/macros.rs:120-130`. -/
def consumeScalar (drive : Drive σ) : PM σ (Nat × ScalarLike) := do
  let e ← pop drive
  match e.wrap with
  | .Token (.Scalar data style) => pure (e.readAt, .Eager { data, style })
  | .Token _ => SO.panic
  | .Deferred l => pure (e.readAt, .Lazy l)

/-- `/repo/src/event/parser/mod.rs:1091-1098`: `empty_scalar`. -/
def emptyScalar (mark : Nat) (kind : NodeKind) : Event :=
  { start := mark, stop := mark
    data := .Scalar { anchor := none, tag := none, kind } ScalarLike.empty }

/-- `/repo/src/event/parser/mod.rs:1125-1158`: the loop of `scan_document_directives`. -/
def scanDirectivesLoop (drive : Drive σ) :
    Nat → Nat → Bool → Directives → PM σ (Nat × Directives)
  | 0, _, _, _ => SO.diverge
  | fuel + 1, stop, seenVersion, d => do
    let e ← peek drive
    match e.marker with
    | .VersionDirective =>
      if !seenVersion then do
        let (newEnd, version) ← consumeVersion drive
        scanDirectivesLoop drive fuel newEnd true { d with version }
      else SO.fail .DuplicateVersion
    | .TagDirective => do
      let (newEnd, handle, pfx) ← consumeTagDirective drive
      if (d.tags.get handle).isSome then SO.fail .DuplicateTagDirective
      else scanDirectivesLoop drive fuel newEnd seenVersion { d with tags := d.tags.insert handle pfx }
    | _ => pure (stop, d)

/-- `/repo/src/event/parser/mod.rs:1104-1170`: `scan_document_directives`, called with
`DEFAULT_TAGS` everywhere. -/
def scanDocumentDirectives (drive : Drive σ) (fuel : Nat) : PM σ (Nat × Nat × Directives) := do
  let e ← peek drive
  let (stop, d) ← scanDirectivesLoop drive fuel e.readAt false Directives.default
  let tags := defaultTags.foldl (fun m p => TagMap.orInsert m p.1 p.2) d.tags
  pure (e.readAt, stop, { d with tags })

/-- `/repo/src/event/parser/mod.rs:1174-1196`: `fetch_anchor`: the new `start` and the name. -/
def fetchAnchor (drive : Drive σ) (start : Nat) : PM σ (Nat × Option Str) := do
  match ← peekMaybe drive with
  | some e =>
    if e.marker = .Anchor then do
      let (s, name) ← consumeAnchor drive
      pure (s, some name)
    else pure (start, none)
  | none => pure (start, none)

/-- `/repo/src/event/parser/mod.rs:1198-1220`: `fetch_tag`: the new `start` and the tag. -/
def fetchTag (drive : Drive σ) (start : Nat) : PM σ (Nat × Option (Str × Str)) := do
  match ← peekMaybe drive with
  | some e =>
    if e.marker = .Tag then do
      let (s, handle, suffix) ← consumeTag drive
      pure (s, some (handle, suffix))
    else pure (start, none)
  | none => pure (start, none)

/-- `/repo/src/event/parser/mod.rs:1222-1235`: `fetch_sequence_end`. -/
def fetchSequenceEnd (drive : Drive σ) (start stop : Nat) : PM σ Event := do
  popState
  let _ ← pop drive
  pure { start, stop, data := .SequenceEnd }

/-- `/repo/src/event/parser/mod.rs:1237-1250`: `fetch_mapping_end`. -/
def fetchMappingEnd (drive : Drive σ) (start stop : Nat) : PM σ Event := do
  popState
  let _ ← pop drive
  pure { start, stop, data := .MappingEnd }

/-- `/repo/src/event/parser/mod.rs:1263-1292`: `validate_tag`: the tag to keep, or an error. -/
def validateTag (tags : TagMap) (tag : Option (Str × Str)) (scalar : Bool) :
    Out ParseError (Option (Str × Str)) :=
  match tag with
  | none => .ok none
  | some (handle, suffix) =>
    let resolvable := !(handle == bytes! "!" && suffix.isEmpty)
    if scalar && !resolvable then .ok none
    else if (tags.get handle).isNone then .err .UndefinedTag
    else .ok (some (handle, suffix))

/-- `/repo/src/event/parser/mod.rs:1252-1261`: `validate_event_tag`. -/
def validateEventTag (tags : TagMap) (e : Event) : Out ParseError Event :=
  match e.data with
  | .Scalar node c => do
    let tag ← validateTag tags node.tag true
    pure { e with data := .Scalar { node with tag } c }
  | .SequenceStart node => do
    let tag ← validateTag tags node.tag false
    pure { e with data := .SequenceStart { node with tag } }
  | .MappingStart node => do
    let tag ← validateTag tags node.tag false
    pure { e with data := .MappingStart { node with tag } }
  | _ => pure e

/-- `/repo/src/event/parser/mod.rs:989-1004`: anchor and tag of a node, in either order. -/
def nodeProperties (drive : Drive σ) (m : Marker) (start : Nat) :
    PM σ (Nat × Option Str × Option (Str × Str)) :=
  match m with
  | .Anchor => do
    let (start, anchor) ← fetchAnchor drive start
    let (start, tag) ← fetchTag drive start
    pure (start, anchor, tag)
  | .Tag => do
    let (start, tag) ← fetchTag drive start
    let (start, anchor) ← fetchAnchor drive start
    pure (start, anchor, tag)
  | _ => pure (start, none, none)

/-- `/repo/src/event/parser/mod.rs:1007-1073`: the node variants. -/
def nodeContent (drive : Drive σ) (block : Bool) (kind : NodeKind) (start : Nat)
    (anchor : Option Str) (tag : Option (Str × Str)) : PM σ Event := do
  let e ← peek drive
  let node : Node := { anchor, tag, kind }
  let stop := e.readAt
  let implicitScalar : PM σ Event :=
    if anchor.isSome || tag.isSome then do
      popState
      pure { start, stop, data := .Scalar node ScalarLike.empty }
    else SO.fail .MissingNode
  match e.marker with
  | .FlowSequenceStart => do
    setTop (.FlowSequenceEntry true)
    pure { start, stop, data := .SequenceStart node }
  | .FlowMappingStart => do
    setTop (.FlowMappingKey true)
    pure { start, stop, data := .MappingStart node }
  | .BlockSequenceStart =>
    if block then do
      setTop (.BlockSequenceEntry true)
      pure { start, stop, data := .SequenceStart node }
    else implicitScalar
  | .BlockMappingStart =>
    if block then do
      setTop (.BlockMappingKey true)
      pure { start, stop, data := .MappingStart node }
    else implicitScalar
  | .Scalar => do
    let (_, scalar) ← consumeScalar drive
    popState
    pure { start, stop, data := .Scalar node scalar }
  | _ => implicitScalar

/-- `/repo/src/event/parser/mod.rs:975-1077`: `node` up to the tag check. -/
def nodeEvent (drive : Drive σ) (block : Bool) (kind : NodeKind) : PM σ Event := do
  let e ← peek drive
  if e.marker = .Alias then do
    popState
    let (at_, name) ← consumeAlias drive
    pure { start := at_, stop := at_, data := .Alias name }
  else do
    let (start, anchor, tag) ← nodeProperties drive e.marker e.readAt
    nodeContent drive block kind start anchor tag

/-- `/repo/src/event/parser/mod.rs:966-1086`: `node`. The final tag check happens after the state
change, so the change survives an `UndefinedTag` error. -/
def node (drive : Drive σ) (block : Bool) (kind : NodeKind) : PM σ (Option Event) := do
  let ev ← nodeEvent drive block kind
  let s ← SO.get
  let ev ← SO.lift (validateEventTag s.parser.directives.tags ev)
  pure (some ev)

/-- `/repo/src/event/parser/mod.rs:180-195`: `stream_start`. -/
def streamStart (drive : Drive σ) : PM σ (Option Event) := do
  let e ← peek drive
  if e.marker = .StreamStart then do
    let (at_, enc) ← consumeStreamStart drive
    setTop (.DocumentStart true true)
    pure (some { start := at_, stop := at_, data := .StreamStart enc })
  else SO.fail .CorruptStream

/-- `/repo/src/event/parser/mod.rs:199-212`: `stream_end`. -/
def streamEnd (drive : Drive σ) : PM σ (Option Event) := do
  let s ← SO.get
  if s.parser.done then pure none
  else do
    let at_ ← consumeStreamEnd drive
    SO.modify fun s => { s with parser := { s.parser with done := true } }
    pure (some { start := at_, stop := at_, data := .StreamEnd })

/-- `/repo/src/event/parser/mod.rs:234-240`: skip extra `...` tokens. -/
def skipDocumentEnds (drive : Drive σ) : Nat → PM σ Unit
  | 0 => SO.diverge
  | fuel + 1 => do
    let e ← peek drive
    if e.marker = .DocumentEnd then do
      let _ ← pop drive
      skipDocumentEnds drive fuel
    else pure ()

/-- `/repo/src/event/parser/mod.rs:308-316`: the new document's directives become active. -/
def setDirectives (d : Directives) : PM σ Unit :=
  SO.modify fun s => { s with parser := { s.parser with directives := d } }

/-- `/repo/src/event/parser/mod.rs:234-240`: extra `...` tokens are skipped before an explicit
document. -/
def skipEndsIf (drive : Drive σ) (fuel : Nat) (implicit : Bool) : PM σ Unit :=
  if implicit then pure () else skipDocumentEnds drive fuel

/-- `/repo/src/event/parser/mod.rs:272-279`: the `---` of an explicit document. -/
def documentMarker (drive : Drive σ) : PM σ Nat := do
  let e ← peek drive
  if e.marker = .DocumentStart then do
    let e ← pop drive
    pure e.readAt
  else SO.fail .MissingDocumentStart

/-- `/repo/src/event/parser/mod.rs:218-319`: `document_start`. -/
def documentStart (drive : Drive σ) (fuel : Nat) (implicit first : Bool) :
    PM σ (Option Event) := do
  skipEndsIf drive fuel implicit
  let e ← peek drive
  let markers := e.marker = .TagDirective || e.marker = .VersionDirective ||
    e.marker = .DocumentStart || e.marker = .StreamEnd
  if implicit && !markers then do
    let (start, stop, d) ← scanDocumentDirectives drive fuel
    pushState .DocumentEnd
    setTop .BlockNode
    setDirectives d
    pure (some { start, stop, data := .DocumentStart d true })
  else if e.marker ≠ .StreamEnd then do
    let (start, _, d) ← scanDocumentDirectives drive fuel
    let stop ← documentMarker drive
    pushState .DocumentEnd
    setTop .DocumentContent
    setDirectives d
    pure (some { start, stop, data := .DocumentStart d false })
  else if first then do
    let (start, stop, d) ← scanDocumentDirectives drive fuel
    setTop .DocumentEnd
    setDirectives d
    pure (some { start, stop, data := .DocumentStart d true })
  else do
    setTop .StreamEnd
    pure none

/-- `/repo/src/event/parser/mod.rs:328-338`: whether the document ends implicitly; an explicit
`...` is consumed. -/
def implicitEnd (drive : Drive σ) (e : TokenEntry) : PM σ Bool :=
  if e.marker = .DocumentEnd then do
    let _ ← pop drive
    pure false
  else pure true

/-- `/repo/src/event/parser/mod.rs:323-351`: `document_end`. -/
def documentEnd (drive : Drive σ) : PM σ (Option Event) := do
  let e ← peek drive
  let implicit ← implicitEnd drive e
  setTop (.DocumentStart (!implicit) false)
  pure (some { start := e.readAt, stop := e.readAt, data := .DocumentEnd implicit })

/-- `/repo/src/event/parser/mod.rs:356-387`: `explicit_document_content`. -/
def explicitDocumentContent (drive : Drive σ) : PM σ (Option Event) := do
  let e ← peek drive
  if e.marker = .VersionDirective || e.marker = .TagDirective || e.marker = .DocumentStart ||
      e.marker = .DocumentEnd || e.marker = .StreamEnd then do
    popState
    pure none
  else node drive true .Root

/-- The first call in a collection pops its start token. `/repo/src/event/parser/mod.rs:403-406`,
`:583-586`, `:799-802`. -/
def popFirst (drive : Drive σ) (first : Bool) : PM σ Unit :=
  if first then do
    let _ ← pop drive
    pure ()
  else pure ()

/-- `/repo/src/event/parser/mod.rs:391-456`: `block_sequence_entry`. -/
def blockSequenceEntry (drive : Drive σ) (first : Bool) : PM σ (Option Event) := do
  popFirst drive first
  let e ← peek drive
  match e.marker with
  | .BlockEntry => do
    let _ ← pop drive
    let e' ← peek drive
    if e'.marker = .BlockEntry || e'.marker = .BlockEnd then do
      setTop (.BlockSequenceEntry false)
      pure (some (emptyScalar e.readAt .Entry))
    else do
      pushState (.BlockSequenceEntry false)
      node drive true .Entry
  | .BlockEnd => do
    let _ ← pop drive
    popState
    pure (some { start := e.readAt, stop := e.readAt, data := .SequenceEnd })
  | _ => SO.fail .MissingBlockEntry

/-- `/repo/src/event/parser/mod.rs:474-481`: as `popFirst`, with a peek first. -/
def peekPopFirst (drive : Drive σ) (first : Bool) : PM σ Unit :=
  if first then do
    let _ ← peek drive
    let _ ← pop drive
    pure ()
  else pure ()

/-- `/repo/src/event/parser/mod.rs:461-521`: `block_mapping_key`. -/
def blockMappingKey (drive : Drive σ) (first : Bool) : PM σ (Option Event) := do
  peekPopFirst drive first
  let e ← peek drive
  match e.marker with
  | .Key => do
    let _ ← pop drive
    let e' ← peek drive
    if !(e'.marker = .Key || e'.marker = .Value || e'.marker = .BlockEnd) then do
      pushState .BlockMappingValue
      node drive true .Key
    else do
      setTop .BlockMappingValue
      pure (some (emptyScalar e'.readAt .Key))
  | .BlockEnd => do
    let _ ← pop drive
    popState
    pure (some { start := e.readAt, stop := e.readAt, data := .MappingEnd })
  | _ => SO.fail .MissingKey

/-- `/repo/src/event/parser/mod.rs:526-570`: `block_mapping_value`. -/
def blockMappingValue (drive : Drive σ) : PM σ (Option Event) := do
  let e ← peek drive
  match e.marker with
  | .Value => do
    let _ ← pop drive
    let e' ← peek drive
    if !(e'.marker = .Key || e'.marker = .Value || e'.marker = .BlockEnd) then do
      pushState (.BlockMappingKey false)
      node drive true .Value
    else do
      setTop (.BlockMappingKey false)
      pure (some (emptyScalar e'.readAt .Value))
  | _ => do
    setTop (.BlockMappingKey false)
    pure (some (emptyScalar e.readAt .Value))

/-- A non-first entry of a flow collection is preceded by `,`.
`/repo/src/event/parser/mod.rs:596-612`, `:812-829`. -/
def popFlowEntry (drive : Drive σ) (first : Bool) (e : TokenEntry) (err : ParseError) :
    PM σ Unit :=
  if first then pure ()
  else if e.marker = .FlowEntry then do
    let _ ← pop drive
    pure ()
  else SO.fail err

/-- `/repo/src/event/parser/mod.rs:574-670`: `flow_sequence_entry`. -/
def flowSequenceEntry (drive : Drive σ) (first : Bool) : PM σ (Option Event) := do
  popFirst drive first
  let e ← peek drive
  if e.marker ≠ .FlowSequenceEnd then do
    popFlowEntry drive first e .MissingFlowSequenceEntryOrEnd
    let e ← peek drive
    if e.marker = .Key then do
      let _ ← pop drive
      setTop .FlowSequenceMappingKey
      pure (some { start := e.readAt, stop := e.readAt
                   data := .MappingStart { anchor := none, tag := none, kind := .Entry } })
    else if e.marker ≠ .FlowSequenceEnd then do
      pushState (.FlowSequenceEntry false)
      node drive false .Entry
    else do
      let ev ← fetchSequenceEnd drive e.readAt e.readAt
      pure (some ev)
  else do
    let ev ← fetchSequenceEnd drive e.readAt e.readAt
    pure (some ev)

/-- `/repo/src/event/parser/mod.rs:676-719`: `flow_sequence_entry_mapping_key`. -/
def flowSequenceEntryMappingKey (drive : Drive σ) : PM σ (Option Event) := do
  let e ← peek drive
  if !(e.marker = .Value || e.marker = .FlowEntry || e.marker = .FlowSequenceEnd) then do
    pushState .FlowSequenceMappingValue
    node drive false .Key
  else do
    setTop .FlowSequenceMappingValue
    pure (some (emptyScalar e.readAt .Key))

/-- `/repo/src/event/parser/mod.rs:735-744`: consume `:` and tell whether a node follows. -/
def flowPairHasValue (drive : Drive σ) (e : TokenEntry) : PM σ Bool :=
  if e.marker = .Value then do
    let _ ← pop drive
    let e' ← peek drive
    pure (!(e'.marker = .FlowEntry || e'.marker = .FlowSequenceEnd))
  else pure false

/-- `/repo/src/event/parser/mod.rs:728-760`: `flow_sequence_entry_mapping_value`. -/
def flowSequenceEntryMappingValue (drive : Drive σ) : PM σ (Option Event) := do
  let e ← peek drive
  let real ← flowPairHasValue drive e
  if real then do
    pushState .FlowSequenceMappingEnd
    node drive false .Value
  else do
    setTop .FlowSequenceMappingEnd
    pure (some (emptyScalar e.readAt .Value))

/-- `/repo/src/event/parser/mod.rs:765-782`: `flow_sequence_entry_mapping_end`. -/
def flowSequenceEntryMappingEnd (drive : Drive σ) : PM σ (Option Event) := do
  let e ← peek drive
  setTop (.FlowSequenceEntry false)
  pure (some { start := e.readAt, stop := e.readAt, data := .MappingEnd })

/-- `/repo/src/event/parser/mod.rs:787-904`: `flow_mapping_key`. -/
def flowMappingKey (drive : Drive σ) (first : Bool) : PM σ (Option Event) := do
  popFirst drive first
  let e ← peek drive
  if e.marker ≠ .FlowMappingEnd then do
    popFlowEntry drive first e .MissingFlowMappingEntryOrEnd
    let e ← peek drive
    if e.marker = .Key then do
      let _ ← pop drive
      let e' ← peek drive
      if !(e'.marker = .Value || e'.marker = .FlowEntry || e'.marker = .FlowMappingEnd) then do
        pushState (.FlowMappingValue false)
        node drive false .Key
      else do
        setTop (.FlowMappingValue false)
        pure (some (emptyScalar e'.readAt .Key))
    else if e.marker ≠ .FlowMappingEnd then do
      pushState (.FlowMappingValue true)
      node drive false .Key
    else do
      let ev ← fetchMappingEnd drive e.readAt e.readAt
      pure (some ev)
  else do
    let ev ← fetchMappingEnd drive e.readAt e.readAt
    pure (some ev)

/-- `/repo/src/event/parser/mod.rs:908-963`: `flow_mapping_value`. -/
def flowMappingValue (drive : Drive σ) (empty : Bool) : PM σ (Option Event) := do
  let e ← peek drive
  if empty then do
    setTop (.FlowMappingKey false)
    pure (some (emptyScalar e.readAt .Value))
  else if e.marker = .Value then do
    let _ ← pop drive
    let e' ← peek drive
    if !(e'.marker = .FlowEntry || e'.marker = .FlowMappingEnd) then do
      pushState (.FlowMappingKey false)
      node drive false .Value
    else do
      setTop (.FlowMappingKey false)
      pure (some (emptyScalar e'.readAt .Value))
  else do
    setTop (.FlowMappingKey false)
    pure (some (emptyScalar e.readAt .Value))

/-- `/repo/src/event/parser/mod.rs:147-175`: `state_transition`. -/
def stateTransition (drive : Drive σ) (fuel : Nat) : PM σ (Option Event) := do
  let s ← SO.get
  match s.parser.state.top with
  | .StreamStart => streamStart drive
  | .DocumentStart implicit first => documentStart drive fuel implicit first
  | .DocumentContent => explicitDocumentContent drive
  | .DocumentEnd => documentEnd drive
  | .BlockNode => node drive true .Root
  | .FlowNode => node drive false .Root
  | .BlockSequenceEntry first => blockSequenceEntry drive first
  | .BlockMappingKey first => blockMappingKey drive first
  | .BlockMappingValue => blockMappingValue drive
  | .FlowSequenceEntry first => flowSequenceEntry drive first
  | .FlowSequenceMappingKey => flowSequenceEntryMappingKey drive
  | .FlowSequenceMappingValue => flowSequenceEntryMappingValue drive
  | .FlowSequenceMappingEnd => flowSequenceEntryMappingEnd drive
  | .FlowMappingKey first => flowMappingKey drive first
  | .FlowMappingValue empty => flowMappingValue drive empty
  | .StreamEnd => streamEnd drive

/-- `/repo/src/event/parser/mod.rs:132-143`: the loop of `get_next_event`. -/
def nextEventLoop (drive : Drive σ) (fuel : Nat) : Nat → PM σ (Option Event)
  | 0 => SO.diverge
  | n + 1 => do
    let s ← SO.get
    if s.parser.done then pure none
    else do
      match ← stateTransition drive fuel with
      | some ev => pure (some ev)
      | none => nextEventLoop drive fuel n

/-- `/repo/src/event/parser/mod.rs:105-110,129-143`: `next_event` (before `transpose`): `ok none`
is the end of iteration, `ok (some e)` is `Some(Ok(e))`, `err e` is `Some(Err(e))`. -/
def nextEvent (drive : Drive σ) (fuel : Nat) : PM σ (Option Event) := nextEventLoop drive fuel fuel

end Parser

end Yary
