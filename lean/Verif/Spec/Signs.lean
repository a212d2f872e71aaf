import Verif.Spec.Scalars
import Verif.Spec.Steps

/-! # The characters that stand for tokens -/

namespace Yary.Spec

/-- A sign ends here. -/
def SignEnds (s : Str) : Prop := s = [] ∨ White s

/-- An indicator of flow collections is next. -/
def FlowSign (s : Str) : Prop := ∃ b t, s = b :: t ∧ b ∈ bytes! ",[]{}"

/-- `---` or `...`, in the first column. -/
def MarkerHere (column : Nat) (s : Str) : Prop :=
  column = 0 ∧ ∃ t, (s = bytes! "---" ++ t ∨ s = bytes! "..." ++ t) ∧ SignEnds t

/-- A plain scalar may begin here, where `flow` says whether this is inside a flow collection: none of the characters with a meaning of
their own, and none of `-`, `?` and `:` where they have one. -/
def PlainSign (flow : Bool) (column : Nat) (s : Str) : Prop :=
  ∃ b t, s = b :: t ∧ b ∉ bytes! ",[]{}#&*!|>'\"%@`" ∧ ¬ White s ∧ ¬ MarkerHere column s ∧
    (b = b! '-' → ¬ SignEnds t ∧ (flow = true → ¬ FlowSign t)) ∧
    (b = b! '?' ∨ b = b! ':' → flow = false ∧ ¬ SignEnds t)

/-- `Stands flow column s tok`: the text `s`, in this column, inside a flow collection if `flow`, begins with the characters that stand
for the token `tok`, or for the beginning of one like it. -/
def Stands (flow : Bool) (column : Nat) (s : Str) : MaybeToken → Prop
  | .Token .StreamEnd => s = []
  | .Token .DocumentStart => column = 0 ∧ ∃ t, s = bytes! "---" ++ t ∧ SignEnds t
  | .Token .DocumentEnd => column = 0 ∧ ∃ t, s = bytes! "..." ++ t ∧ SignEnds t
  | .Token (.VersionDirective ..) => column = 0 ∧ ∃ t, s = bytes! "%YAML" ++ t
  | .Token (.TagDirective ..) => column = 0 ∧ ∃ t, s = bytes! "%TAG" ++ t
  | .Token .FlowSequenceStart => ∃ t, s = b! '[' :: t
  | .Token .FlowSequenceEnd => ∃ t, s = b! ']' :: t
  | .Token .FlowMappingStart => ∃ t, s = b! '{' :: t
  | .Token .FlowMappingEnd => ∃ t, s = b! '}' :: t
  | .Token .FlowEntry => ∃ t, s = b! ',' :: t
  | .Token .BlockEntry => ∃ t, s = b! '-' :: t ∧ SignEnds t
  | .Token .Key => ∃ t, s = b! '?' :: t ∧ (flow = true ∨ SignEnds t)
  | .Token .Value => ∃ t, s = b! ':' :: t ∧ (flow = true ∨ SignEnds t)
  | .Token (.Anchor _) => ∃ t, s = b! '&' :: t
  | .Token (.Alias _) => ∃ t, s = b! '*' :: t
  | .Token (.Tag ..) => ∃ t, s = b! '!' :: t
  | .Token (.Scalar _ .SingleQuote) | .Deferred (.flow _ _ _ true) => ∃ t, s = 0x27 :: t
  | .Token (.Scalar _ .DoubleQuote) | .Deferred (.flow _ _ _ false) => ∃ t, s = b! '"' :: t
  | .Token (.Scalar _ .Literal) | .Deferred (.block _ _ _ _ false) => flow = false ∧ ∃ t, s = b! '|' :: t
  | .Token (.Scalar _ .Folded) | .Deferred (.block _ _ _ _ true) => flow = false ∧ ∃ t, s = b! '>' :: t
  | .Token (.Scalar _ .Plain) | .Deferred (.plain ..) => PlainSign flow column s
  | .Token (.StreamStart _) | .Token .BlockSequenceStart | .Token .BlockMappingStart | .Token .BlockEnd => False

/-- The tokens that come with another one: the starts and ends of block collections, and keys found to be keys by their values. -/
def Implied (e : TokenEntry) : Prop := e.wrap.marker = .BlockEnd ∨ e.wrap.marker = .BlockMappingStart ∨ e.wrap.marker = .BlockSequenceStart ∨
  e.wrap.marker = .Key

/-- `Sign flow column s tok r`: the text `s` is the sign that stands for `tok`, and then `r`. -/
inductive Sign (flow : Bool) (column : Nat) : Str → Token → Str → Prop where
  | documentStart {t : Str} (h : column = 0) (ht : SignEnds t) : Sign flow column (bytes! "---" ++ t) .DocumentStart t
  | documentEnd {t : Str} (h : column = 0) (ht : SignEnds t) : Sign flow column (bytes! "..." ++ t) .DocumentEnd t
  | sequenceStart (t : Str) : Sign flow column (b! '[' :: t) .FlowSequenceStart t
  | mappingStart (t : Str) : Sign flow column (b! '{' :: t) .FlowMappingStart t
  | sequenceEnd (t : Str) (h : flow = true) : Sign flow column (b! ']' :: t) .FlowSequenceEnd t
  | mappingEnd (t : Str) (h : flow = true) : Sign flow column (b! '}' :: t) .FlowMappingEnd t
  | entry (t : Str) : Sign flow column (b! ',' :: t) .FlowEntry t
  | key (t : Str) (h : flow = true) : Sign flow column (b! '?' :: t) .Key t

/-- No token begins with these characters: `@` and the backquote are reserved, `%` is for directives, which begin lines, block scalars
have no place in flow collections, and there no plain scalar begins with a `-` before an indicator. -/
inductive Reserved (flow : Bool) (column : Nat) : Str → Prop where
  | at (t : Str) : Reserved flow column (b! '@' :: t)
  | backquote (t : Str) : Reserved flow column (b! '`' :: t)
  | percent (t : Str) (h : column ≠ 0) : Reserved flow column (b! '%' :: t)
  | literal (t : Str) (h : flow = true) : Reserved flow column (b! '|' :: t)
  | folded (t : Str) (h : flow = true) : Reserved flow column (b! '>' :: t)
  | dash (t : Str) (h : flow = true) (ht : FlowSign t) : Reserved flow column (b! '-' :: t)

end Yary.Spec
