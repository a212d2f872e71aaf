import Verif.Model.Parser

/-!
# Which tokens make up an event

The relation between the tokens a call of `next_event` takes from its source and the event it
hands out.
-/

namespace Yary.Spec

variable {σ : Type}

/-- Taking entries from a reader, with successful peeks in between. -/
inductive Pops (drive : Drive σ) : PeekReader σ → List TokenEntry → PeekReader σ → Prop where
  | nil (p : PeekReader σ) : Pops drive p [] p
  | peek {p q p' : PeekReader σ} {r : Option TokenEntry} {ts : List TokenEntry}
      (h : p.peek drive = (.ok r, q)) (t : Pops drive q ts p') : Pops drive p ts p'
  | pop {p q p' : PeekReader σ} {e : TokenEntry} {ts : List TokenEntry}
      (h : p.pop drive = (.ok (some e), q)) (t : Pops drive q ts p') : Pops drive p (e :: ts) p'

/-- The next tokens the reader has are `l`. -/
def Ahead (drive : Drive σ) : PeekReader σ → List TokenEntry → Prop
  | _, [] => True
  | p, t :: l => ∃ q, p.peek drive = (.ok (some t), q) ∧ Ahead drive { q with peeked := none } l

/-- Content a token can carry to a node. -/
inductive Piece where
  | anchor (name : Str)
  | tag (handle suffix : Str)
  | alias (name : Str)
  | scalar (c : ScalarLike)
  deriving DecidableEq, Repr

/-- The content of a token. -/
def pieces (t : TokenEntry) : List Piece :=
  match t.wrap with
  | .Token (.Anchor name) => [.anchor name]
  | .Token (.Tag handle suffix) => [.tag handle suffix]
  | .Token (.Alias name) => [.alias name]
  | .Token (.Scalar data style) => [.scalar (.Eager { data, style })]
  | .Deferred l => [.scalar (.Lazy l)]
  | _ => []

/-- Markers of tokens that only shape collections. -/
def structuralMarker : Marker → Bool
  | .BlockSequenceStart | .BlockMappingStart | .BlockEnd | .FlowSequenceStart | .FlowSequenceEnd
  | .FlowMappingStart | .FlowMappingEnd | .BlockEntry | .FlowEntry | .Key | .Value => true
  | _ => false

/-- Tokens that only shape collections. -/
def structural (t : TokenEntry) : Bool := structuralMarker t.marker

/-- The tokens carry the pieces, in this order, and are structural otherwise. -/
def Carry (ts : List TokenEntry) (ps : List Piece) : Prop :=
  ts.flatMap pieces = ps ∧ ∀ t ∈ ts, pieces t ≠ [] ∨ structural t = true

/-- The properties of a node, in either order. -/
def Props (ps : List Piece) (anchor : Option Str) (tag : Option (Str × Str)) : Prop :=
  ps = anchor.toList.map .anchor ++ tag.toList.map (fun t => .tag t.1 t.2) ∨
  ps = tag.toList.map (fun t => .tag t.1 t.2) ++ anchor.toList.map .anchor

/-- All `%YAML` versions, in order. -/
def versions : List TokenEntry → List Version
  | [] => []
  | ⟨.Token (.VersionDirective major minor), _⟩ :: ts => { major, minor } :: versions ts
  | _ :: ts => versions ts

/-- All `%TAG` directives, in order. -/
def tagPairs : List TokenEntry → List (Str × Str)
  | [] => []
  | ⟨.Token (.TagDirective handle pfx), _⟩ :: ts => (handle, pfx) :: tagPairs ts
  | _ :: ts => tagPairs ts

/-- A `%YAML` or `%TAG` token. -/
def isDirective (t : TokenEntry) : Bool :=
  t.marker == .VersionDirective || t.marker == .TagDirective

/-- The handles every document knows, with their prefixes (YAML 1.2, 6.8.2). -/
def knownTags : List (Str × Str) :=
  [(bytes! "!", bytes! "!"), (bytes! "!!", bytes! "tag:yaml.org,2002:")]

/-- `d` is what the directive tokens `ts` of one document declare: at most one version, 1.2 if
none; no handle twice, nor one of the default handles; and as tags exactly the declared ones and
the defaults. -/
structure Declares (ts : List TokenEntry) (d : Directives) : Prop where
  directives : ∀ t ∈ ts, isDirective t = true
  version : versions ts = [] ∧ d.version = { major := 1, minor := 2 } ∨ versions ts = [d.version]
  distinct : ((knownTags ++ tagPairs ts).map (·.1)).Nodup
  tags : ∀ h p, (h, p) ∈ d.tags ↔ (h, p) ∈ knownTags ∨ (h, p) ∈ tagPairs ts
  handles : (d.tags.map (·.1)).Nodup

/-- The event data that a call may hand out after taking exactly the tokens `ts`. -/
def Explains (ts : List TokenEntry) : EventData → Prop
  | .StreamStart enc => ∃ n, ts = [⟨.Token (.StreamStart enc), n⟩]
  | .StreamEnd => ∃ ends n, (∀ t ∈ ends, t.marker = .DocumentEnd) ∧
      ts = ends ++ [⟨.Token .StreamEnd, n⟩]
  | .DocumentStart d implicit => ∃ ends dirs mark, ts = ends ++ dirs ++ mark ∧
      (∀ t ∈ ends, t.marker = .DocumentEnd) ∧ Declares dirs d ∧
      (implicit = true → dirs = [] ∧ mark = []) ∧
      (implicit = false → ∃ n, mark = [⟨.Token .DocumentStart, n⟩])
  | .DocumentEnd implicit =>
      (implicit = true → ts = []) ∧ (implicit = false → ∃ n, ts = [⟨.Token .DocumentEnd, n⟩])
  | .Alias name => Carry ts [.alias name]
  | .Scalar node c => ∃ ps tag, Props ps node.anchor tag ∧
      (node.tag = tag ∨ node.tag = none ∧ tag = some (bytes! "!", [])) ∧
      (Carry ts (ps ++ [.scalar c]) ∨ Carry ts ps ∧ c = .empty)
  | .SequenceStart node => ∃ ps, Props ps node.anchor node.tag ∧ Carry ts ps
  | .MappingStart node => ∃ ps, Props ps node.anchor node.tag ∧ Carry ts ps
  | .SequenceEnd => Carry ts []
  | .MappingEnd => Carry ts []

/-- Each event is explained by its chunk of tokens. -/
inductive Explained : List (List TokenEntry) → List Event → Prop where
  | nil : Explained [] []
  | cons {ts : List TokenEntry} {chunks : List (List TokenEntry)} {e : Event} {es : List Event}
      (h : Explains ts e.data) (t : Explained chunks es) : Explained (ts :: chunks) (e :: es)

end Yary.Spec
