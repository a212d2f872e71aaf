import Verif.Spec.BlockForm
import Verif.Spec.Scalars
import Verif.Spec.Translate

/-!
# The language of texts and its meaning

Which texts are a stream of documents, and which events such a text stands for: a grammar over
text (compare YAML 1.2, chapters 6 to 9) that writes down the events next to each production. It
covers a good part of YAML: flow and block collections nested in each other, plain, quoted and
block scalars, aliases, anchors, tags, comments, directives, and several documents. Where the library
takes less than YAML does, the grammar does too, and says so.

The whole text is `base`; the productions are about the rest of it from some place on. -/

namespace Yary.Spec

/-! ## Places and gaps -/

/-- The position in `base` at which its rest `t` begins. -/
def place (base t : Str) : MStats := posAfter {} (base.take (base.length - t.length))

/-- Its line. -/
def lineOf (base t : Str) : Nat := (place base t).lines

/-- Its column. -/
def columnOf (base t : Str) : Nat := (place base t).column

/-- Between `s` and `t` there is nothing but white space and comments. -/
def Gap (s t : Str) : Prop := ∃ n, Skips true s n t

/-- The same, with at least one line break. -/
def NewLine (s t : Str) : Prop := ∃ n, Skips true s (n + 1) t

/-- The line, or the text, ends at `s`, and the next thing is `t`. -/
def LineEnds (s t : Str) : Prop := NewLine s t ∨ t = [] ∧ Gap s []

/-- Where the pieces of a node may be: in the block context they must be right of the column
`level` of the innermost block collection; and directly in a sequence that is not indented in its
mapping, and whose current entry begins in the line `line`, they must be in that line (YAML has no
such restriction). -/
structure Spot where
  block : Bool
  level : Option Nat
  line : Option Nat
  deriving DecidableEq

/-- The rest `t` begins where it may. -/
def Spot.Ok (base : Str) (p : Spot) (t : Str) : Prop :=
  (p.block = true → ∀ n, p.level = some n → n < columnOf base t) ∧ ∀ l, p.line = some l → lineOf base t = l

/-- Next, after a gap, comes `t`, and it begins where it may. -/
def NextAt (base : Str) (p : Spot) (s t : Str) : Prop := Gap s t ∧ p.Ok base t

/-- The spot in a flow collection. -/
def Spot.flow (p : Spot) : Spot := { p with block := false }

/-- The least indent of further lines of a plain scalar. -/
def Spot.indent (p : Spot) : Nat := match p.level with | some n => n + 1 | none => 1

/-- An indicator ends here. -/
def EndsHere (s : Str) : Prop := s = [] ∨ White s

/-! ## Nodes without collections -/

/-- `Word base p s c r`: `s` is a quoted or plain scalar with the content `c`, and then `r`. -/
inductive Word (base : Str) (p : Spot) : Str → Scalar → Str → Prop where
  | quoted {single : Bool} {t v r : Str} (h : Quoted single t v r) :
      Word base p (quoteMark single :: t) { data := v, style := quoteStyle single } r
  | plain {s v r : Str} (hb : PlainBegins s) (h : PlainText p.block p.indent (place base s) s v r) :
      Word base p s { data := v, style := .Plain } r

/-- `NodeProps base p s anchor tag r`: `s` is an anchor, a tag or both, and then `r`. -/
inductive NodeProps (base : Str) (p : Spot) : Str → Option Str → Option (Str × Str) → Str → Prop where
  | anchor {s a r : Str} (h : AnchorText s (.Anchor a) r) : NodeProps base p s (some a) none r
  | tag {s h x r : Str} (ht : TagText s (.Tag h x) r) : NodeProps base p s none (some (h, x)) r
  | anchorTag {s a r t h x r' : Str} (ha : AnchorText s (.Anchor a) r) (hn : NextAt base p r t) (ht : TagText t (.Tag h x) r') :
      NodeProps base p s (some a) (some (h, x)) r'
  | tagAnchor {s a r t h x r' : Str} (ht : TagText s (.Tag h x) r) (hn : NextAt base p r t) (ha : AnchorText t (.Anchor a) r') :
      NodeProps base p s (some a) (some (h, x)) r'

/-- The same, or nothing, up to the text `t` of the node itself. -/
inductive OptProps (base : Str) (p : Spot) : Str → Option Str → Option (Str × Str) → Str → Prop where
  | none {t : Str} : OptProps base p t none none t
  | some {s r t : Str} {a : Option Str} {tg : Option (Str × Str)} (h : NodeProps base p s a tg r) (hn : NextAt base p r t) :
      OptProps base p s a tg t

/-- `Leaf base tags p kind s es r`: `s` is a node without collections, and then `r`. -/
inductive Leaf (base : Str) (tags : List (Str × Str)) (p : Spot) (kind : NodeKind) : Str → List EventData → Str → Prop where
  | ref {s a r : Str} (h : AnchorText s (.Alias a) r) : Leaf base tags p kind s [.Alias a] r
  | scalar {s t r : Str} {a : Option Str} {tg : Option (Str × Str)} {c : Scalar} (hp : OptProps base p s a tg t) (hu : Usable tags tg)
      (h : Word base p t c r) : Leaf base tags p kind s [.Scalar { anchor := a, tag := scalarTag tg, kind } (.Eager c)] r
  | empty {s r : Str} {a : Option Str} {tg : Option (Str × Str)} (hp : NodeProps base p s a tg r) (hu : Usable tags tg) :
      Leaf base tags p kind s [.Scalar { anchor := a, tag := scalarTag tg, kind } .empty] r

/-- `BlockHead s c t`: `s` is the rest of the first line of a block scalar, after `|` or `>`: how to chomp, and possibly a comment. (In YAML there
may be an indentation indicator too.) -/
def BlockHead (s : Str) (c : Chomping) (t : Str) : Prop :=
  ∃ bl cm b, s = c.mark ++ (bl ++ (cm ++ (b ++ t))) ∧ (∀ x ∈ bl, x = 0x20 ∨ x = 0x09) ∧
    (cm = [] ∨ bl ≠ [] ∧ ∃ l, cm = b! '#' :: l ∧ RestOfLine l (b ++ t)) ∧ BreakBefore b t

/-- `BlockWord n s c r`: `s` is a block scalar in a collection in the column `n`, with the content `c`, and then `r`. Its lines are indented more, as
the first one that is not blank is, and no blank line before that one is wider. (In YAML there may be no such line, and there may be lines of blanks
only; in folded scalars there may also be lines that begin with blanks. And the library misreads some scalars that have a single line right after
the header: `BlockScalar.read` says what it reads.) -/
inductive BlockWord (n : Nat) : Str → Scalar → Str → Prop where
  | mk {x : BlockScalar} {s t u r : Str} {k c : Nat} (hh : BlockHead s x.chomp t) (hl : Lead 0 t x.first.empty k c (x.first.text ++ u))
      (hc : c = max k (n + 1)) (hx : LinesText c (x.first.text ++ u) x.first.text x.more x.breaks r) (hne : ∀ l ∈ x.more, l.text ≠ [])
      (hf : x.fold = true → ∀ l ∈ x.more, ∀ t, l.text ≠ 0x20 :: t ∧ l.text ≠ 0x09 :: t) (hr : x.read u = x.value) :
      BlockWord n ((if x.fold then b! '>' else b! '|') :: s) { data := x.value, style := if x.fold then .Folded else .Literal } r

/-- A block scalar, possibly with properties. -/
inductive BlockLeaf (base : Str) (tags : List (Str × Str)) (p : Spot) (kind : NodeKind) : Str → List EventData → Str → Prop where
  | mk {s t r : Str} {a : Option Str} {tg : Option (Str × Str)} {c : Scalar} (hp : OptProps base p s a tg t) (hu : Usable tags tg)
      (h : BlockWord (p.level.getD 0) t c r) : BlockLeaf base tags p kind s [.Scalar { anchor := a, tag := scalarTag tg, kind } (.Eager c)] r

/-- A key that begins at `s` and has its `:` at `k`: both are in one line, and at most 1024 bytes apart. -/
def KeyFits (base s k : Str) : Prop :=
  lineOf base k = lineOf base s ∧ (place base k).read ≤ (place base s).read + 1024

/-! ## Flow collections -/

mutual

/-- `FlowColl base tags p kind s es r`: `s` is a flow collection, possibly with properties, and then `r`. -/
inductive FlowColl (base : Str) (tags : List (Str × Str)) : Spot → NodeKind → Str → List EventData → Str → Prop where
  | seq {p : Spot} {kind : NodeKind} {s u t r : Str} {a : Option Str} {tg : Option (Str × Str)} {es : List EventData}
      (hp : OptProps base p s a tg (b! '[' :: u)) (hu : Usable tags tg) (hn : NextAt base p.flow u t)
      (h : FlowSeq base tags p.flow true t es r) : FlowColl base tags p kind s (.SequenceStart { anchor := a, tag := tg, kind } :: es) r
  | map {p : Spot} {kind : NodeKind} {s u t r : Str} {a : Option Str} {tg : Option (Str × Str)} {es : List EventData}
      (hp : OptProps base p s a tg (b! '{' :: u)) (hu : Usable tags tg) (hn : NextAt base p.flow u t)
      (h : FlowMap base tags p.flow true t es r) : FlowColl base tags p kind s (.MappingStart { anchor := a, tag := tg, kind } :: es) r

/-- A node in a flow collection. -/
inductive FlowNode (base : Str) (tags : List (Str × Str)) : Spot → NodeKind → Str → List EventData → Str → Prop where
  | leaf {p : Spot} {kind : NodeKind} {s r : Str} {es : List EventData} (h : Leaf base tags p kind s es r) : FlowNode base tags p kind s es r
  | coll {p : Spot} {kind : NodeKind} {s r : Str} {es : List EventData} (h : FlowColl base tags p kind s es r) : FlowNode base tags p kind s es r

/-- The entries of a flow sequence, with `,` in between and possibly at the end, and the `]`. -/
inductive FlowSeq (base : Str) (tags : List (Str × Str)) : Spot → Bool → Str → List EventData → Str → Prop where
  | close {p : Spot} {first : Bool} {r : Str} : FlowSeq base tags p first (b! ']' :: r) [.SequenceEnd] r
  | trailing {p : Spot} {u r : Str} (hn : NextAt base p u (b! ']' :: r)) : FlowSeq base tags p false (b! ',' :: u) [.SequenceEnd] r
  | first {p : Spot} {s u t r : Str} {v es : List EventData} (h : FlowEntry base tags p s v u) (hn : NextAt base p u t)
      (ht : FlowSeq base tags p false t es r) : FlowSeq base tags p true s (v ++ es) r
  | next {p : Spot} {s s' u t r : Str} {v es : List EventData} (hs : NextAt base p s s') (h : FlowEntry base tags p s' v u) (hn : NextAt base p u t)
      (ht : FlowSeq base tags p false t es r) : FlowSeq base tags p false (b! ',' :: s) (v ++ es) r

/-- An entry of a flow sequence: a node, or a pair, which is a mapping of its own. -/
inductive FlowEntry (base : Str) (tags : List (Str × Str)) : Spot → Str → List EventData → Str → Prop where
  | node {p : Spot} {s r : Str} {v : List EventData} (h : FlowNode base tags p .Entry s v r) : FlowEntry base tags p s v r
  | pair {p : Spot} {s r : Str} {v : List EventData} (h : FlowKeyed base tags p s v r) :
      FlowEntry base tags p s (.MappingStart { anchor := none, tag := none, kind := .Entry } :: (v ++ [.MappingEnd])) r

/-- The pairs of a flow mapping, with `,` in between and possibly at the end, and the `}`. -/
inductive FlowMap (base : Str) (tags : List (Str × Str)) : Spot → Bool → Str → List EventData → Str → Prop where
  | close {p : Spot} {first : Bool} {r : Str} : FlowMap base tags p first (b! '}' :: r) [.MappingEnd] r
  | trailing {p : Spot} {u r : Str} (hn : NextAt base p u (b! '}' :: r)) : FlowMap base tags p false (b! ',' :: u) [.MappingEnd] r
  | first {p : Spot} {s u t r : Str} {v es : List EventData} (h : FlowPair base tags p s v u) (hn : NextAt base p u t)
      (ht : FlowMap base tags p false t es r) : FlowMap base tags p true s (v ++ es) r
  | next {p : Spot} {s s' u t r : Str} {v es : List EventData} (hs : NextAt base p s s') (h : FlowPair base tags p s' v u) (hn : NextAt base p u t)
      (ht : FlowMap base tags p false t es r) : FlowMap base tags p false (b! ',' :: s) (v ++ es) r

/-- A pair of a flow mapping; a node alone is a key without value. -/
inductive FlowPair (base : Str) (tags : List (Str × Str)) : Spot → Str → List EventData → Str → Prop where
  | node {p : Spot} {s r : Str} {v : List EventData} (h : FlowNode base tags p .Key s v r) : FlowPair base tags p s (v ++ [leftOut .Value]) r
  | pair {p : Spot} {s r : Str} {v : List EventData} (h : FlowKeyed base tags p s v r) : FlowPair base tags p s v r

/-- A key and its value, with a `:` or a `?`. (In YAML the key before a `:` may be a flow collection,
and it may be left out.) -/
inductive FlowKeyed (base : Str) (tags : List (Str × Str)) : Spot → Str → List EventData → Str → Prop where
  | implicit {p : Spot} {s r u r' : Str} {v v' : List EventData} (hk : Leaf base tags p .Key s v r) (hn : NextAt base p r (b! ':' :: u))
      (hf : KeyFits base s (b! ':' :: u)) (hv : FlowPart base tags p .Value u v' r') : FlowKeyed base tags p s (v ++ v') r'
  | explicit {p : Spot} {s r u r' : Str} {v v' : List EventData} (hk : FlowKey base tags p (lineOf base (b! '?' :: s)) s v r)
      (hn : NextAt base p r (b! ':' :: u)) (hv : FlowPart base tags p .Value u v' r') : FlowKeyed base tags p (b! '?' :: s) (v ++ v') r'
  | keyOnly {p : Spot} {s r : Str} {v : List EventData} (hk : FlowKey base tags p (lineOf base (b! '?' :: s)) s v r) :
      FlowKeyed base tags p (b! '?' :: s) (v ++ [leftOut .Value]) r

/-- A node after an indicator, or nothing. -/
inductive FlowPart (base : Str) (tags : List (Str × Str)) : Spot → NodeKind → Str → List EventData → Str → Prop where
  | leftOut {p : Spot} {kind : NodeKind} {u : Str} : FlowPart base tags p kind u [leftOut kind] u
  | node {p : Spot} {kind : NodeKind} {u t r : Str} {v : List EventData} (hn : NextAt base p u t) (h : FlowNode base tags p kind t v r) :
      FlowPart base tags p kind u v r

/-- The key after a `?` in the given line; it is in that line, unless it is a collection. (In YAML it
may be in another one in any case.) -/
inductive FlowKey (base : Str) (tags : List (Str × Str)) : Spot → Nat → Str → List EventData → Str → Prop where
  | leftOut {p : Spot} {line : Nat} {u : Str} : FlowKey base tags p line u [leftOut .Key] u
  | leaf {p : Spot} {line : Nat} {u t r : Str} {v : List EventData} (hn : NextAt base { p with line := some line } u t)
      (h : Leaf base tags { p with line := some line } .Key t v r) : FlowKey base tags p line u v r
  | coll {p : Spot} {line : Nat} {u t r : Str} {v : List EventData} (hn : NextAt base p u t)
      (h : FlowColl base tags p .Key t v r) : FlowKey base tags p line u v r

end

/-! ## Block collections -/

/-- A node within a line, or in a bracket. -/
inductive Inline (base : Str) (tags : List (Str × Str)) (p : Spot) (kind : NodeKind) : Str → List EventData → Str → Prop where
  | leaf {s r : Str} {es : List EventData} (h : Leaf base tags p kind s es r) : Inline base tags p kind s es r
  | coll {s r : Str} {es : List EventData} (h : FlowColl base tags p kind s es r) : Inline base tags p kind s es r

/-- At the beginning of a line, a document marker or a directive is next. -/
def AtBoundary (base t : Str) : Prop := columnOf base t = 0 ∧ (AtMarker t ∨ ∃ u, t = b! '%' :: u)

/-- A block collection in the column `c` ends before `t`; `zero` if it is a sequence that is not
indented in its mapping. -/
def Closes (base : Str) (zero : Bool) (c : Nat) (t : Str) : Prop :=
  t = [] ∨ columnOf base t < c ∨ AtBoundary base t ∨ (zero = true ∧ columnOf base t = c ∧ ∀ u, t ≠ b! '-' :: u)

/-- The spot in a block collection in the column `c`. -/
def Spot.at (c : Nat) : Spot := ⟨true, some c, none⟩

/-- The spot in an entry of a block sequence in the column `c`; the `-` is at `s`. -/
def entrySpot (base : Str) (zero : Bool) (c : Nat) (s : Str) : Spot :=
  ⟨true, some c, if zero then some (lineOf base s) else none⟩

mutual

/-- `BlockNode base tags p a kind s es t`: `s` is a node, and the next thing after it, in another
line, is `t`. With `a`, block collections may begin here. -/
inductive BlockNode (base : Str) (tags : List (Str × Str)) : Spot → Bool → NodeKind → Str → List EventData → Str → Prop where
  | inline {p : Spot} {a : Bool} {kind : NodeKind} {s r t : Str} {es : List EventData} (h : Inline base tags p kind s es r) (he : LineEnds r t) :
      BlockNode base tags p a kind s es t
  | coll {p : Spot} {kind : NodeKind} {s t : Str} {es : List EventData} (h : BlockColl base tags p kind none none s es t) :
      BlockNode base tags p true kind s es t
  | props {p : Spot} {a : Bool} {kind : NodeKind} {s r u t : Str} {an : Option Str} {tg : Option (Str × Str)} {es : List EventData}
      (hp : NodeProps base p s an tg r) (hu : Usable tags tg) (hl : NewLine r u) (ho : p.Ok base u)
      (h : BlockColl base tags p kind an tg u es t) : BlockNode base tags p a kind s es t
  | literal {p : Spot} {a : Bool} {kind : NodeKind} {s r t : Str} {es : List EventData} (h : BlockLeaf base tags p kind s es r) (hg : Gap r t) :
      BlockNode base tags p a kind s es t

/-- A block collection. -/
inductive BlockColl (base : Str) (tags : List (Str × Str)) :
    Spot → NodeKind → Option Str → Option (Str × Str) → Str → List EventData → Str → Prop where
  | seq {p : Spot} {kind : NodeKind} {a : Option Str} {tg : Option (Str × Str)} {s t : Str} {es : List EventData}
      (h : BlockSeq base tags (columnOf base s) false true s es t) :
      BlockColl base tags p kind a tg s (.SequenceStart { anchor := a, tag := tg, kind } :: es) t
  | map {p : Spot} {kind : NodeKind} {a : Option Str} {tg : Option (Str × Str)} {s t : Str} {es : List EventData}
      (h : BlockMap base tags (columnOf base s) p true s es t) :
      BlockColl base tags p kind a tg s (.MappingStart { anchor := a, tag := tg, kind } :: es) t

/-- The entries of a block sequence in the column `c`, at least one. -/
inductive BlockSeq (base : Str) (tags : List (Str × Str)) : Nat → Bool → Bool → Str → List EventData → Str → Prop where
  | close {c : Nat} {zero : Bool} {t : Str} (h : Closes base zero c t) : BlockSeq base tags c zero false t [.SequenceEnd] t
  | entry {c : Nat} {zero first : Bool} {u t t' : Str} {v es : List EventData} (hc : columnOf base (b! '-' :: u) = c) (hw : EndsHere u)
      (h : BlockPart base tags (entrySpot base zero c (b! '-' :: u)) false true .Entry u v t)
      (ht : BlockSeq base tags c zero false t es t') : BlockSeq base tags c zero first (b! '-' :: u) (v ++ es) t'

/-- The pairs of a block mapping in the column `c`, at least one; `p` is the spot of the next key. -/
inductive BlockMap (base : Str) (tags : List (Str × Str)) : Nat → Spot → Bool → Str → List EventData → Str → Prop where
  | close {c : Nat} {p : Spot} {t : Str} (h : Closes base false c t) : BlockMap base tags c p false t [.MappingEnd] t
  | implicit {c : Nat} {p : Spot} {first : Bool} {s r u t t' : Str} {v v' es : List EventData} (hc : columnOf base s = c)
      (hk : Leaf base tags p .Key s v r) (hg : Gap r (b! ':' :: u)) (hf : KeyFits base s (b! ':' :: u)) (hw : EndsHere u)
      (hv : BlockPart base tags (.at c) true false .Value u v' t) (ht : BlockMap base tags c (.at c) false t es t') :
      BlockMap base tags c p first s (v ++ (v' ++ es)) t'
  | explicit {c : Nat} {p : Spot} {first : Bool} {u t t' t'' : Str} {v v' es : List EventData} (hc : columnOf base (b! '?' :: u) = c)
      (hw : EndsHere u) (hk : BlockPart base tags (.at c) true true .Key u v t) (hv : BlockValue base tags c t v' t')
      (ht : BlockMap base tags c (.at c) false t' es t'') : BlockMap base tags c p first (b! '?' :: u) (v ++ (v' ++ es)) t''

/-- The value of a pair with `?`; it may be left out together with the `:`. -/
inductive BlockValue (base : Str) (tags : List (Str × Str)) : Nat → Str → List EventData → Str → Prop where
  | leftOut {c : Nat} {t : Str} : BlockValue base tags c t [leftOut .Value] t
  | value {c : Nat} {u t : Str} {v : List EventData} (hc : columnOf base (b! ':' :: u) = c) (hw : EndsHere u)
      (h : BlockPart base tags (.at c) true true .Value u v t) : BlockValue base tags c (b! ':' :: u) v t

/-- A node after an indicator, or nothing; in a mapping (`map`) also a sequence that is not indented. -/
inductive BlockPart (base : Str) (tags : List (Str × Str)) : Spot → Bool → Bool → NodeKind → Str → List EventData → Str → Prop where
  | leftOut {p : Spot} {map a : Bool} {kind : NodeKind} {u t : Str} (h : LineEnds u t) : BlockPart base tags p map a kind u [leftOut kind] t
  | here {p : Spot} {map a : Bool} {kind : NodeKind} {u s t : Str} {v : List EventData} (hn : NextAt base p u s)
      (h : BlockNode base tags p a kind s v t) : BlockPart base tags p map a kind u v t
  | under {p : Spot} {map a : Bool} {kind : NodeKind} {u s t : Str} {v : List EventData} (hl : NewLine u s) (ho : p.Ok base s)
      (h : BlockNode base tags p true kind s v t) : BlockPart base tags p map a kind u v t
  | zero {p : Spot} {a : Bool} {kind : NodeKind} {u s t : Str} {es : List EventData} (hl : NewLine u s)
      (h : BlockSeq base tags (columnOf base s) true true s es t) (hc : p.level = some (columnOf base s)) :
      BlockPart base tags p true a kind u (.SequenceStart { anchor := none, tag := none, kind } :: es) t
  | propsZero {p : Spot} {a : Bool} {kind : NodeKind} {u w r s t : Str} {an : Option Str} {tg : Option (Str × Str)} {es : List EventData}
      (hn : NextAt base p u w) (hp : NodeProps base p w an tg r) (hu : Usable tags tg) (hl : NewLine r s)
      (h : BlockSeq base tags (columnOf base s) true true s es t) (hc : p.level = some (columnOf base s)) :
      BlockPart base tags p true a kind u (.SequenceStart { anchor := an, tag := tg, kind } :: es) t

end

/-! ## Documents -/

/-- The node of a document. `lvl` is the column its block collections must be right of: none, until a
block collection has ended (in YAML there is no such column at any time). -/
inductive RootNode (base : Str) (tags : List (Str × Str)) : Option Nat → Option Nat → Bool → Str → List EventData → Str → Prop where
  | inline {lvl : Option Nat} {a : Bool} {s r t : Str} {es : List EventData} (h : Inline base tags ⟨true, lvl, none⟩ .Root s es r)
      (he : LineEnds r t) : RootNode base tags lvl lvl a s es t
  | coll {lvl : Option Nat} {s t : Str} {es : List EventData} (h : BlockColl base tags ⟨true, lvl, none⟩ .Root none none s es t) :
      RootNode base tags lvl (some 0) true s es t
  | props {lvl : Option Nat} {a : Bool} {s r u t : Str} {an : Option Str} {tg : Option (Str × Str)} {es : List EventData}
      (hp : NodeProps base ⟨true, lvl, none⟩ s an tg r) (hu : Usable tags tg) (hl : NewLine r u) (ho : Spot.Ok base ⟨true, lvl, none⟩ u)
      (h : BlockColl base tags ⟨true, lvl, none⟩ .Root an tg u es t) : RootNode base tags lvl (some 0) a s es t
  | literal {lvl : Option Nat} {a : Bool} {s r t : Str} {es : List EventData} (h : BlockLeaf base tags ⟨true, lvl, none⟩ .Root s es r)
      (hg : Gap r t) : RootNode base tags lvl lvl a s es t

/-- The content of a document after its `---`. -/
inductive DocContent (base : Str) (tags : List (Str × Str)) : Option Nat → Option Nat → Str → List EventData → Str → Prop where
  | nothing {lvl : Option Nat} {u t : Str} (h : LineEnds u t) : DocContent base tags lvl lvl u [] t
  | here {lvl lvl' : Option Nat} {u s t : Str} {v : List EventData} (hn : NextAt base ⟨true, lvl, none⟩ u s)
      (h : RootNode base tags lvl lvl' false s v t) : DocContent base tags lvl lvl' u v t
  | under {lvl lvl' : Option Nat} {u s t : Str} {v : List EventData} (hl : NewLine u s) (ho : Spot.Ok base ⟨true, lvl, none⟩ s)
      (h : RootNode base tags lvl lvl' true s v t) : DocContent base tags lvl lvl' u v t

/-- `DirectiveLines base v tags s v' tags' t`: from `s` to `t` there are directives, which change what is declared
from `v` and `tags` to `v'` and `tags'`. There is at most one version, no handle is declared twice, nor a default one. -/
inductive DirectiveLines (base : Str) : Option Version → List (Str × Str) → Str → Option Version → List (Str × Str) → Str → Prop where
  | nil {v : Option Version} {tags : List (Str × Str)} {t : Str} : DirectiveLines base v tags t v tags t
  | version {tags tags' : List (Str × Str)} {v' : Option Version} {major minor : Nat} {s r t t' : Str} (hc : columnOf base s = 0)
      (h : DirectiveText s (.VersionDirective major minor) r) (hg : Gap r t)
      (ht : DirectiveLines base (some { major, minor }) tags t v' tags' t') : DirectiveLines base none tags s v' tags' t'
  | tag {v v' : Option Version} {tags tags' : List (Str × Str)} {handle pfx s r t t' : Str} (hc : columnOf base s = 0)
      (h : DirectiveText s (.TagDirective handle pfx) r) (hn : ∀ p, (handle, p) ∉ tags) (hg : Gap r t)
      (ht : DirectiveLines base v ((handle, pfx) :: tags) t v' tags' t') : DirectiveLines base v tags s v' tags' t'

/-- The end of a document, and whether it is explicit. -/
inductive DocEnd (base : Str) : Bool → Str → List EventData → Str → Prop where
  | implicit {t : Str} : DocEnd base false t [.DocumentEnd true] t
  | explicit {u t : Str} (hc : columnOf base (bytes! "..." ++ u) = 0) (hw : EndsHere u) (h : LineEnds u t) :
      DocEnd base true (bytes! "..." ++ u) [.DocumentEnd false] t

/-- Documents. A document without `---` must be the first one or follow a `...` (`bare`). -/
inductive Docs (base : Str) : Option Nat → Bool → Str → List EventData → Prop where
  | done {lvl : Option Nat} {bare : Bool} : Docs base lvl bare [] [.StreamEnd]
  | bare {lvl lvl' : Option Nat} {b : Bool} {s t t' : Str} {v y es : List EventData} (ho : Spot.Ok base ⟨true, lvl, none⟩ s)
      (h : RootNode base knownTags lvl lvl' true s v t) (he : DocEnd base b t y t') (ht : Docs base lvl' b t' es) :
      Docs base lvl true s (.DocumentStart { version := { major := 1, minor := 2 }, tags := knownTags } true :: (v ++ (y ++ es)))
  | explicit {lvl lvl' : Option Nat} {bare b : Bool} {s u t t' : Str} {version : Option Version} {tags : List (Str × Str)}
      {v y es : List EventData} (hd : DirectiveLines base none knownTags s version tags (bytes! "---" ++ u))
      (hc : columnOf base (bytes! "---" ++ u) = 0) (hw : EndsHere u) (h : DocContent base tags lvl lvl' u v t)
      (he : DocEnd base b t y t') (ht : Docs base lvl' b t' es) :
      Docs base lvl bare s
        (.DocumentStart { version := version.getD { major := 1, minor := 2 }, tags } false :: (v ++ (y ++ es)))

/-- A whole text. A text without documents counts as one empty document. -/
inductive TextStream : Str → List EventData → Prop where
  | empty {base : Str} (h : Gap base []) :
      TextStream base [.StreamStart .UTF8, .DocumentStart { version := { major := 1, minor := 2 }, tags := knownTags } true,
        .DocumentEnd true, .StreamEnd]
  | docs {base s : Str} {es : List EventData} (hg : Gap base s) (hne : s ≠ []) (h : Docs base none true s es) :
      TextStream base (.StreamStart .UTF8 :: es)

end Yary.Spec
