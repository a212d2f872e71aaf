import Verif.Model.Event

/-!
# The grammar of event streams

`Documented` is the grammar in the module documentation, `/repo/src/event/mod.rs:35-42`, word for
word. `Kinded` is the same grammar with every node annotated by its position (the `NodeKind`
documentation, `/repo/src/event/types.rs:436-474`).

Both take a proposition `rootAlias`: whether an alias may be the content of a document. The
documentation says it may not (`content := Scalar | collection`); the relaxed grammar says it may.
-/

namespace Yary.Spec

/-- What kind of event it is. -/
inductive Ev where
  | streamStart | streamEnd | docStart | docEnd | alias | scalar
  | seqStart | seqEnd | mapStart | mapEnd
  deriving DecidableEq, Repr

/-- The kind of an event. -/
def Ev.of : EventData → Ev
  | .StreamStart _ => .streamStart
  | .StreamEnd => .streamEnd
  | .DocumentStart .. => .docStart
  | .DocumentEnd _ => .docEnd
  | .Alias _ => .alias
  | .Scalar .. => .scalar
  | .MappingStart _ => .mapStart
  | .MappingEnd => .mapEnd
  | .SequenceStart _ => .seqStart
  | .SequenceEnd => .seqEnd

namespace Documented

mutual
/-- `content := Scalar | sequence | mapping` -/
inductive Content : List Ev → Prop where
  | scalar : Content [.scalar]
  | sequence {w : List Ev} (h : Nodes w) : Content (.seqStart :: w ++ [.seqEnd])
  | mapping {w : List Ev} (h : Pairs w) : Content (.mapStart :: w ++ [.mapEnd])
/-- `node := Alias | content` -/
inductive Node : List Ev → Prop where
  | alias : Node [.alias]
  | content {w : List Ev} (h : Content w) : Node w
/-- `node*` -/
inductive Nodes : List Ev → Prop where
  | nil : Nodes []
  | cons {u v : List Ev} (h : Node u) (t : Nodes v) : Nodes (u ++ v)
/-- `(node node)*` -/
inductive Pairs : List Ev → Prop where
  | nil : Pairs []
  | cons {u v w : List Ev} (k : Node u) (x : Node v) (t : Pairs w) : Pairs (u ++ v ++ w)
end

/-- `document := DocumentStart content? DocumentEnd` -/
inductive Document (rootAlias : Prop) : List Ev → Prop where
  | empty : Document rootAlias [.docStart, .docEnd]
  | content {w : List Ev} (h : Content w) : Document rootAlias (.docStart :: w ++ [.docEnd])
  | alias (h : rootAlias) : Document rootAlias [.docStart, .alias, .docEnd]

/-- `stream := StreamStart document+ StreamEnd` -/
def Stream (rootAlias : Prop) (w : List Ev) : Prop :=
  ∃ docs : List (List Ev), docs ≠ [] ∧ (∀ d ∈ docs, Document rootAlias d) ∧
    w = .streamStart :: docs.flatten ++ [.streamEnd]

end Documented

/-- An event with the position its node claims to have. -/
inductive KEv where
  | streamStart | streamEnd | docStart | docEnd | alias
  | scalar (k : NodeKind) | seqStart (k : NodeKind) | seqEnd | mapStart (k : NodeKind) | mapEnd
  deriving DecidableEq, Repr

/-- The kind and claimed position of an event. -/
def KEv.of : EventData → KEv
  | .StreamStart _ => .streamStart
  | .StreamEnd => .streamEnd
  | .DocumentStart .. => .docStart
  | .DocumentEnd _ => .docEnd
  | .Alias _ => .alias
  | .Scalar n _ => .scalar n.kind
  | .MappingStart n => .mapStart n.kind
  | .MappingEnd => .mapEnd
  | .SequenceStart n => .seqStart n.kind
  | .SequenceEnd => .seqEnd

namespace Kinded

variable (rootAlias : Prop)

mutual
/-- A node at position `k`: the top of a document (`Root`), in a sequence (`Entry`), at an even
(`Key`) or odd (`Value`) place of a mapping. -/
inductive Node : NodeKind → List KEv → Prop where
  | alias {k : NodeKind} (h : k = .Root → rootAlias) : Node k [.alias]
  | scalar {k : NodeKind} : Node k [.scalar k]
  | sequence {k : NodeKind} {w : List KEv} (h : Entries w) : Node k (.seqStart k :: w ++ [.seqEnd])
  | mapping {k : NodeKind} {w : List KEv} (h : Pairs w) : Node k (.mapStart k :: w ++ [.mapEnd])
/-- The entries of a sequence. -/
inductive Entries : List KEv → Prop where
  | nil : Entries []
  | cons {u v : List KEv} (h : Node .Entry u) (t : Entries v) : Entries (u ++ v)
/-- Keys and values of a mapping, alternating. -/
inductive Pairs : List KEv → Prop where
  | nil : Pairs []
  | cons {u v w : List KEv} (k : Node .Key u) (x : Node .Value v) (t : Pairs w) :
      Pairs (u ++ (v ++ w))
end

/-- A document. -/
inductive Document : List KEv → Prop where
  | empty : Document [.docStart, .docEnd]
  | content {w : List KEv} (h : Node rootAlias .Root w) : Document (.docStart :: w ++ [.docEnd])

/-- A stream. -/
def Stream (w : List KEv) : Prop :=
  ∃ docs : List (List KEv), docs ≠ [] ∧ (∀ d ∈ docs, Document rootAlias d) ∧
    w = .streamStart :: docs.flatten ++ [.streamEnd]

end Kinded

end Yary.Spec
