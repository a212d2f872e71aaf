import Verif.Spec.Content

/-!
# The language of token streams and its meaning

Which token sequences are a stream of documents, and which events such a stream stands for: a
grammar over tokens (compare YAML 1.2 and the token documentation in `/repo/src/token.rs`) that
writes down the events next to each production. Positions are left out.
-/

namespace Yary.Spec

/-- The tokens of a node's properties, in either order. -/
inductive TProps : List MaybeToken → Option Str → Option (Str × Str) → Prop where
  | none : TProps [] none none
  | anchor (a : Str) : TProps [.Token (.Anchor a)] (some a) none
  | tag (h s : Str) : TProps [.Token (.Tag h s)] none (some (h, s))
  | anchorTag (a h s : Str) :
      TProps [.Token (.Anchor a), .Token (.Tag h s)] (some a) (some (h, s))
  | tagAnchor (a h s : Str) :
      TProps [.Token (.Tag h s), .Token (.Anchor a)] (some a) (some (h, s))

/-- The content of a scalar token. -/
inductive TScalar : MaybeToken → ScalarLike → Prop where
  | eager (data : Str) (style : ScalarStyle) :
      TScalar (.Token (.Scalar data style)) (.Eager { data, style })
  | deferred (l : Lazy) : TScalar (.Deferred l) (.Lazy l)

/-- A tag may be used: its handle is defined. -/
def Usable (tags : List (Str × Str)) (tag : Option (Str × Str)) : Prop :=
  ∀ h s, tag = some (h, s) → ∃ p, (h, p) ∈ tags

/-- The tag a scalar is given: the non-specific tag `!` says no more than that it is a scalar. -/
def scalarTag (tag : Option (Str × Str)) : Option (Str × Str) :=
  if tag = some (bytes! "!", []) then none else tag

/-- The empty scalar that stands for something left out. -/
def leftOut (kind : NodeKind) : EventData := .Scalar { anchor := none, tag := none, kind } .empty

mutual

/-- A node at a place where block collections are allowed (`block`) or not. -/
inductive TNode (tags : List (Str × Str)) :
    Bool → NodeKind → List MaybeToken → List EventData → Prop where
  | ref (b : Bool) (k : NodeKind) (a : Str) :
      TNode tags b k [.Token (.Alias a)] [.Alias a]
  | scalar {ps : List MaybeToken} {anchor : Option Str} {tag : Option (Str × Str)}
      {t : MaybeToken} {c : ScalarLike} (b : Bool) (kind : NodeKind) (hp : TProps ps anchor tag)
      (hu : Usable tags tag) (ht : TScalar t c) :
      TNode tags b kind (ps ++ [t]) [.Scalar { anchor, tag := scalarTag tag, kind } c]
  | empty {ps : List MaybeToken} {anchor : Option Str} {tag : Option (Str × Str)}
      (b : Bool) (kind : NodeKind) (hp : TProps ps anchor tag) (hu : Usable tags tag)
      (hne : ps ≠ []) :
      TNode tags b kind ps [.Scalar { anchor, tag := scalarTag tag, kind } .empty]
  | blockSeq {ps : List MaybeToken} {anchor : Option Str} {tag : Option (Str × Str)}
      {ts : List MaybeToken} {es : List EventData} (kind : NodeKind) (hp : TProps ps anchor tag)
      (hu : Usable tags tag) (he : TBlockSeq tags ts es) :
      TNode tags true kind (ps ++ .Token .BlockSequenceStart :: ts)
        (.SequenceStart { anchor, tag, kind } :: es)
  | blockMap {ps : List MaybeToken} {anchor : Option Str} {tag : Option (Str × Str)}
      {ts : List MaybeToken} {es : List EventData} (kind : NodeKind) (hp : TProps ps anchor tag)
      (hu : Usable tags tag) (he : TBlockMap tags ts es) :
      TNode tags true kind (ps ++ .Token .BlockMappingStart :: ts)
        (.MappingStart { anchor, tag, kind } :: es)
  | flowSeq {ps : List MaybeToken} {anchor : Option Str} {tag : Option (Str × Str)}
      {ts : List MaybeToken} {es : List EventData} (b : Bool) (kind : NodeKind)
      (hp : TProps ps anchor tag) (hu : Usable tags tag) (he : TFlowSeq tags true ts es) :
      TNode tags b kind (ps ++ .Token .FlowSequenceStart :: ts)
        (.SequenceStart { anchor, tag, kind } :: es)
  | flowMap {ps : List MaybeToken} {anchor : Option Str} {tag : Option (Str × Str)}
      {ts : List MaybeToken} {es : List EventData} (b : Bool) (kind : NodeKind)
      (hp : TProps ps anchor tag) (hu : Usable tags tag) (he : TFlowMap tags true ts es) :
      TNode tags b kind (ps ++ .Token .FlowMappingStart :: ts)
        (.MappingStart { anchor, tag, kind } :: es)

/-- A node or nothing at all. -/
inductive TPart (tags : List (Str × Str)) :
    Bool → NodeKind → List MaybeToken → List EventData → Prop where
  | leftOut (b : Bool) (kind : NodeKind) : TPart tags b kind [] [leftOut kind]
  | node {b : Bool} {kind : NodeKind} {ts : List MaybeToken} {es : List EventData}
      (h : TNode tags b kind ts es) : TPart tags b kind ts es

/-- The value of a pair; the `:` may be left out together with it. -/
inductive TValue (tags : List (Str × Str)) :
    Bool → List MaybeToken → List EventData → Prop where
  | leftOut (b : Bool) : TValue tags b [] [leftOut .Value]
  | value {b : Bool} {ts : List MaybeToken} {es : List EventData}
      (h : TPart tags b .Value ts es) : TValue tags b (.Token .Value :: ts) es

/-- The entries of a block sequence and its end. -/
inductive TBlockSeq (tags : List (Str × Str)) : List MaybeToken → List EventData → Prop where
  | close : TBlockSeq tags [.Token .BlockEnd] [.SequenceEnd]
  | entry {u ts : List MaybeToken} {v es : List EventData} (h : TPart tags true .Entry u v)
      (t : TBlockSeq tags ts es) : TBlockSeq tags (.Token .BlockEntry :: (u ++ ts)) (v ++ es)

/-- The pairs of a block mapping and its end. -/
inductive TBlockMap (tags : List (Str × Str)) : List MaybeToken → List EventData → Prop where
  | close : TBlockMap tags [.Token .BlockEnd] [.MappingEnd]
  | pair {u u' ts : List MaybeToken} {v v' es : List EventData} (hk : TPart tags true .Key u v)
      (hv : TValue tags true u' v') (t : TBlockMap tags ts es) :
      TBlockMap tags (.Token .Key :: (u ++ (u' ++ ts))) (v ++ (v' ++ es))

/-- The entries of a flow sequence and its end; `first` before the first entry, `,` in between,
and possibly at the end. -/
inductive TFlowSeq (tags : List (Str × Str)) :
    Bool → List MaybeToken → List EventData → Prop where
  | close (first : Bool) : TFlowSeq tags first [.Token .FlowSequenceEnd] [.SequenceEnd]
  | trailing : TFlowSeq tags false [.Token .FlowEntry, .Token .FlowSequenceEnd] [.SequenceEnd]
  | first {u ts : List MaybeToken} {v es : List EventData} (h : TFlowEntry tags u v)
      (t : TFlowSeq tags false ts es) : TFlowSeq tags true (u ++ ts) (v ++ es)
  | next {u ts : List MaybeToken} {v es : List EventData} (h : TFlowEntry tags u v)
      (t : TFlowSeq tags false ts es) :
      TFlowSeq tags false (.Token .FlowEntry :: (u ++ ts)) (v ++ es)

/-- An entry of a flow sequence: a node, or a pair, which is a mapping of its own. -/
inductive TFlowEntry (tags : List (Str × Str)) : List MaybeToken → List EventData → Prop where
  | node {u : List MaybeToken} {v : List EventData} (h : TNode tags false .Entry u v) :
      TFlowEntry tags u v
  | pair {u u' : List MaybeToken} {v v' : List EventData} (hk : TPart tags false .Key u v)
      (hv : TValue tags false u' v') :
      TFlowEntry tags (.Token .Key :: (u ++ u'))
        (.MappingStart { anchor := none, tag := none, kind := .Entry } :: (v ++ v' ++ [.MappingEnd]))

/-- The pairs of a flow mapping and its end. -/
inductive TFlowMap (tags : List (Str × Str)) :
    Bool → List MaybeToken → List EventData → Prop where
  | close (first : Bool) : TFlowMap tags first [.Token .FlowMappingEnd] [.MappingEnd]
  | trailing : TFlowMap tags false [.Token .FlowEntry, .Token .FlowMappingEnd] [.MappingEnd]
  | first {u ts : List MaybeToken} {v es : List EventData} (h : TFlowPair tags u v)
      (t : TFlowMap tags false ts es) : TFlowMap tags true (u ++ ts) (v ++ es)
  | next {u ts : List MaybeToken} {v es : List EventData} (h : TFlowPair tags u v)
      (t : TFlowMap tags false ts es) :
      TFlowMap tags false (.Token .FlowEntry :: (u ++ ts)) (v ++ es)

/-- A pair of a flow mapping; a node alone is a key without value. -/
inductive TFlowPair (tags : List (Str × Str)) : List MaybeToken → List EventData → Prop where
  | node {u : List MaybeToken} {v : List EventData} (h : TNode tags false .Key u v) :
      TFlowPair tags u (v ++ [leftOut .Value])
  | pair {u u' : List MaybeToken} {v v' : List EventData} (hk : TPart tags false .Key u v)
      (hv : TValue tags false u' v') : TFlowPair tags (.Token .Key :: (u ++ u')) (v ++ v')

end

/-- The directives in front of a `---`: at most one version, no handle twice, nor a default one.
`tags` lists the declared handles, last first, and then the default ones. -/
inductive TDirectives : List MaybeToken → Option Version → List (Str × Str) → Prop where
  | nil : TDirectives [] none knownTags
  | version {ts : List MaybeToken} {tags : List (Str × Str)} (major minor : Nat)
      (t : TDirectives ts none tags) :
      TDirectives (ts ++ [.Token (.VersionDirective major minor)]) (some { major, minor }) tags
  | tag {ts : List MaybeToken} {v : Option Version} {tags : List (Str × Str)} (handle pfx : Str)
      (t : TDirectives ts v tags) (hn : ∀ p, (handle, p) ∉ tags) :
      TDirectives (ts ++ [.Token (.TagDirective handle pfx)]) v ((handle, pfx) :: tags)

/-- The end of a document, and whether it is explicit. -/
inductive TEnd : Bool → List MaybeToken → List EventData → Prop where
  | implicit : TEnd false [] [.DocumentEnd true]
  | explicit : TEnd true [.Token .DocumentEnd] [.DocumentEnd false]

/-- The content of a document that starts with `---`. -/
inductive TContent (tags : List (Str × Str)) : List MaybeToken → List EventData → Prop where
  | nothing : TContent tags [] []
  | node {u : List MaybeToken} {v : List EventData} (h : TNode tags true .Root u v) :
      TContent tags u v

/-- Documents and the end of the stream. A document without `---` must be the first one or follow
a `...` (`bare`). -/
inductive TDocs : (bare : Bool) → List MaybeToken → List EventData → Prop where
  | done (bare : Bool) : TDocs bare [.Token .StreamEnd] [.StreamEnd]
  | bare {u x ts : List MaybeToken} {v y es : List EventData} {b : Bool}
      (h : TNode knownTags true .Root u v) (he : TEnd b x y) (t : TDocs b ts es) :
      TDocs true (u ++ (x ++ ts))
        (.DocumentStart { version := { major := 1, minor := 2 }, tags := knownTags } true ::
          (v ++ (y ++ es)))
  | explicit {d u x ts : List MaybeToken} {v y es : List EventData} {bare b : Bool}
      {version : Option Version} {tags : List (Str × Str)} (hd : TDirectives d version tags)
      (h : TContent tags u v) (he : TEnd b x y) (t : TDocs b ts es) :
      TDocs bare (d ++ .Token .DocumentStart :: (u ++ (x ++ ts)))
        (.DocumentStart { version := version.getD { major := 1, minor := 2 }, tags } false ::
          (v ++ (y ++ es)))

/-- A whole stream. A stream without documents counts as one empty document. -/
inductive TStream : List MaybeToken → List EventData → Prop where
  | empty (enc : StreamEncoding) :
      TStream [.Token (.StreamStart enc), .Token .StreamEnd]
        [.StreamStart enc,
          .DocumentStart { version := { major := 1, minor := 2 }, tags := knownTags } true,
          .DocumentEnd true, .StreamEnd]
  | docs {ts : List MaybeToken} {es : List EventData} (enc : StreamEncoding)
      (h : TDocs true ts es) (hne : ts ≠ [.Token .StreamEnd]) :
      TStream (.Token (.StreamStart enc) :: ts) (.StreamStart enc :: es)

end Yary.Spec
