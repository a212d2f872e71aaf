import Verif.Model.Token

/-! # Events (`/repo/src/event/types.rs`) and parser states (`/repo/src/event/state.rs`) -/

namespace Yary

/-- `/repo/src/event/types.rs:438-474`: `NodeKind`. -/
inductive NodeKind where
  | Root | Entry | Key | Value
  deriving DecidableEq, Repr

/-- `/repo/src/event/types.rs:350-355`: `Scalar`. -/
structure Scalar where
  data : Str
  style : ScalarStyle
  deriving DecidableEq, Repr

/-- `/repo/src/event/types.rs:191-202`: `ScalarLike`. -/
inductive ScalarLike where
  | Eager (s : Scalar)
  | Lazy (l : Yary.Lazy)
  deriving DecidableEq, Repr

/-- `/repo/src/event/types.rs:310-332,60`: `ScalarLike::empty`, `EMPTY_SCALAR`, `Default`. -/
def ScalarLike.empty : ScalarLike := .Eager { data := [], style := .Plain }

/-- `/repo/src/event/types.rs:536-543`: `VersionDirective`. -/
structure Version where
  major : Nat
  minor : Nat
  deriving DecidableEq, Repr

/-- `/repo/src/event/types.rs:547`: `TagDirectives`, a `HashMap`: an association list, the first
entry for a key counts. -/
abbrev TagMap := List (Str × Str)

/-- `HashMap::get`. -/
def TagMap.get (m : TagMap) (k : Str) : Option Str := (m.find? fun p => p.1 == k).map (·.2)

/-- `HashMap::insert` for a key that is not present. -/
def TagMap.insert (m : TagMap) (k v : Str) : TagMap := (k, v) :: m

/-- `HashMap::entry(k).or_insert(v)`. -/
def TagMap.orInsert (m : TagMap) (k v : Str) : TagMap :=
  if (m.get k).isSome then m else m.insert k v

/-- `/repo/src/event/types.rs:498-506`: `Directives`. -/
structure Directives where
  version : Version
  tags : TagMap
  deriving DecidableEq, Repr

/-- `/repo/src/event/types.rs:38-41`: `DEFAULT_TAGS`. -/
def defaultTags : List (Str × Str) :=
  [(bytes! "!", bytes! "!"), (bytes! "!!", bytes! "tag:yaml.org,2002:")]

/-- `/repo/src/event/types.rs:52`: `DEFAULT_VERSION`. -/
def defaultVersion : Version := { major := 1, minor := 2 }

/-- `/repo/src/event/types.rs:521-530`: `Directives::default`. -/
def Directives.default : Directives := { version := defaultVersion, tags := defaultTags }

/-- `/repo/src/event/types.rs:167-183`: `Node`, without its content. -/
structure Node where
  anchor : Option Str
  tag : Option (Str × Str)
  kind : NodeKind
  deriving DecidableEq, Repr

/-- `/repo/src/event/types.rs:115-164`: `EventData`. -/
inductive EventData where
  | StreamStart (enc : StreamEncoding)
  | StreamEnd
  | DocumentStart (directives : Directives) (implicit : Bool)
  | DocumentEnd (implicit : Bool)
  | Alias (name : Str)
  | Scalar (node : Node) (content : ScalarLike)
  | MappingStart (node : Node)
  | MappingEnd
  | SequenceStart (node : Node)
  | SequenceEnd
  deriving DecidableEq, Repr

/-- `/repo/src/event/types.rs:65-71`: `Event`. -/
structure Event where
  start : Nat
  stop : Nat
  data : EventData
  deriving DecidableEq, Repr

/-- `/repo/src/event/state.rs:89-139`: `State`. The `Flags` arguments are the booleans they are
tested for: `O_IMPLICIT`, `O_FIRST`, `O_EMPTY` (`/repo/src/event/state.rs:141-170`). -/
inductive State where
  | StreamStart
  | StreamEnd
  | DocumentStart (implicit first : Bool)
  | DocumentContent
  | DocumentEnd
  | BlockNode
  | FlowNode
  | BlockSequenceEntry (first : Bool)
  | BlockMappingKey (first : Bool)
  | BlockMappingValue
  | FlowSequenceEntry (first : Bool)
  | FlowSequenceMappingKey
  | FlowSequenceMappingValue
  | FlowSequenceMappingEnd
  | FlowMappingKey (first : Bool)
  | FlowMappingValue (empty : Bool)
  deriving DecidableEq, Repr

/-- `/repo/src/event/state.rs:13-18`: `StateMachine`; the stack's end is the list's head. -/
structure StateMachine where
  top : State
  stack : List State
  deriving DecidableEq, Repr

namespace StateMachine

/-- `state!(.., -> s)`: `/repo/src/event/parser/macros.rs:75-77`. -/
def setTop (m : StateMachine) (s : State) : StateMachine := { m with top := s }

/-- `/repo/src/event/state.rs:44-51`: `StateMachine::push`. -/
def push (m : StateMachine) (s : State) : StateMachine := { m with stack := s :: m.stack }

/-- `/repo/src/event/state.rs:53-59`: `StateMachine::pop`. -/
def pop (m : StateMachine) : StateMachine :=
  match m.stack with
  | [] => m
  | s :: ss => { top := s, stack := ss }

end StateMachine

end Yary
