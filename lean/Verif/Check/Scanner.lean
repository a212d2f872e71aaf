import Verif.Spec.Tokens

/-!
# The unit tests of the scanner

The texts and tokens of `/repo/src/scanner/tests`, read by the model, eagerly and lazily.
These are tests of the model and not of the theorems: they show that it computes what the tests
of the code expect. -/

namespace Yary.Check

open Spec

/-- The bytes of a string. -/
def b (s : String) : Str := utf8 s.toList

/-- A token, evaluated if it is deferred. -/
def evaluated : Option TokenEntry → Out ScanError (Option Token)
  | none => .ok none
  | some ⟨.Token t, _⟩ => .ok (some t)
  | some ⟨.Deferred l, _⟩ => do
    let t ← l.intoToken
    .ok (some t)

/-- What one pop reports. -/
def reported : ROp × Out ReaderError (Option TokenEntry) → Out ReaderError (Option Token)
  | (_, .ok e) =>
    match evaluated e with
    | .ok t => .ok t
    | .err e => .err (.Scanner e)
    | .panic => .panic
    | .diverge => .diverge
  | (_, .err e) => .err e
  | (_, .panic) => .panic
  | (_, .diverge) => .diverge

/-- Reading the text gives the tokens, and then the last report, eagerly and lazily. -/
def reads (text : String) (tokens : List Token) (last : Out ReaderError (Option Token)) : Bool :=
  [false, true].all fun l =>
    decide ((history { lazy := l } text.toList (List.replicate (tokens.length + 1) .pop)).map reported = (tokens.map fun t => .ok (some t)) ++ [last])

/-- `/repo/src/scanner/tests/anchor.rs:14`: `anchor_alias`. -/
example : reads "*alias\n"
    [.StreamStart .UTF8, .Alias (b "alias"), .StreamEnd]
    (.ok none) = true := by decide +kernel

/-- `/repo/src/scanner/tests/anchor.rs:30`: `anchor`. -/
example : reads "    &anchor     \n"
    [.StreamStart .UTF8, .Anchor (b "anchor"), .StreamEnd]
    (.ok none) = true := by decide +kernel

/-- `/repo/src/scanner/tests/collection.rs:18`: `block_sequence`. -/
example : reads "\n- 'a'\n- 'block'\n- 'sequence'\n"
    [.StreamStart .UTF8, .BlockSequenceStart, .BlockEntry, .Scalar (b "a") .SingleQuote, .BlockEntry, .Scalar (b "block") .SingleQuote, .BlockEntry, .Scalar (b "sequence") .SingleQuote, .BlockEnd, .StreamEnd]
    (.ok none) = true := by decide +kernel

/-- `/repo/src/scanner/tests/collection.rs:43`: `block_sequence_nested`. -/
example : reads "\n- - 'a'\n  - \n    'nested'\n- 'block'\n- 'sequence'\n"
    [.StreamStart .UTF8, .BlockSequenceStart, .BlockEntry, .BlockSequenceStart, .BlockEntry, .Scalar (b "a") .SingleQuote, .BlockEntry, .Scalar (b "nested") .SingleQuote, .BlockEnd, .BlockEntry, .Scalar (b "block") .SingleQuote, .BlockEntry, .Scalar (b "sequence") .SingleQuote, .BlockEnd, .StreamEnd]
    (.ok none) = true := by decide +kernel

/-- `/repo/src/scanner/tests/collection.rs:75`: `block_mapping_key_only`. -/
example : reads "'key': "
    [.StreamStart .UTF8, .BlockMappingStart, .Key, .Scalar (b "key") .SingleQuote, .Value, .BlockEnd, .StreamEnd]
    (.ok none) = true := by decide +kernel

/-- `/repo/src/scanner/tests/collection.rs:93`: `block_mapping`. -/
example : reads "'key1': 'value1'\n'key2': 'value2'"
    [.StreamStart .UTF8, .BlockMappingStart, .Key, .Scalar (b "key1") .SingleQuote, .Value, .Scalar (b "value1") .SingleQuote, .Key, .Scalar (b "key2") .SingleQuote, .Value, .Scalar (b "value2") .SingleQuote, .BlockEnd, .StreamEnd]
    (.ok none) = true := by decide +kernel

/-- `/repo/src/scanner/tests/collection.rs:116`: `block_mapping_nested`. -/
example : reads "\n'one':\n  'key': 'value'\n  'and': 'again'\n"
    [.StreamStart .UTF8, .BlockMappingStart, .Key, .Scalar (b "one") .SingleQuote, .Value, .BlockMappingStart, .Key, .Scalar (b "key") .SingleQuote, .Value, .Scalar (b "value") .SingleQuote, .Key, .Scalar (b "and") .SingleQuote, .Value, .Scalar (b "again") .SingleQuote, .BlockEnd, .BlockEnd, .StreamEnd]
    (.ok none) = true := by decide +kernel

/-- `/repo/src/scanner/tests/collection.rs:148`: `block_sequence_no_indent`. -/
example : reads "\n'one':\n- 'two'\n\n\n- 'three'\n"
    [.StreamStart .UTF8, .BlockMappingStart, .Key, .Scalar (b "one") .SingleQuote, .Value, .BlockSequenceStart, .BlockEntry, .Scalar (b "two") .SingleQuote, .BlockEntry, .Scalar (b "three") .SingleQuote, .BlockEnd, .BlockEnd, .StreamEnd]
    (.ok none) = true := by decide +kernel

/-- `/repo/src/scanner/tests/collection.rs:178`: `block_sequence_no_indent_nested`. -/
example : reads "\n'one':\n  'two':\n  - 'three'\n  'four':\n  - 'five'\n'six':\n- 'seven'\n"
    [.StreamStart .UTF8, .BlockMappingStart, .Key, .Scalar (b "one") .SingleQuote, .Value, .BlockMappingStart, .Key, .Scalar (b "two") .SingleQuote, .Value, .BlockSequenceStart, .BlockEntry, .Scalar (b "three") .SingleQuote, .BlockEnd, .Key, .Scalar (b "four") .SingleQuote, .Value, .BlockSequenceStart, .BlockEntry, .Scalar (b "five") .SingleQuote, .BlockEnd, .BlockEnd, .Key, .Scalar (b "six") .SingleQuote, .Value, .BlockSequenceStart, .BlockEntry, .Scalar (b "seven") .SingleQuote, .BlockEnd, .BlockEnd, .StreamEnd]
    (.ok none) = true := by decide +kernel

/-- `/repo/src/scanner/tests/collection.rs:229`: `flow_mapping_indicators`. -/
example : reads "{}"
    [.StreamStart .UTF8, .FlowMappingStart, .FlowMappingEnd, .StreamEnd]
    (.ok none) = true := by decide +kernel

/-- `/repo/src/scanner/tests/collection.rs:248`: `flow_sequence_indicators`. -/
example : reads "[]"
    [.StreamStart .UTF8, .FlowSequenceStart, .FlowSequenceEnd, .StreamEnd]
    (.ok none) = true := by decide +kernel

/-- `/repo/src/scanner/tests/collection.rs:265`: `flow_mapping`. -/
example : reads "{'a key': 'a value','another key': 'another value'}"
    [.StreamStart .UTF8, .FlowMappingStart, .Key, .Scalar (b "a key") .SingleQuote, .Value, .Scalar (b "a value") .SingleQuote, .FlowEntry, .Key, .Scalar (b "another key") .SingleQuote, .Value, .Scalar (b "another value") .SingleQuote, .FlowMappingEnd, .StreamEnd]
    (.ok none) = true := by decide +kernel

/-- `/repo/src/scanner/tests/collection.rs:289`: `flow_sequence`. -/
example : reads "['a key': 'a value','another key': 'another value']"
    [.StreamStart .UTF8, .FlowSequenceStart, .Key, .Scalar (b "a key") .SingleQuote, .Value, .Scalar (b "a value") .SingleQuote, .FlowEntry, .Key, .Scalar (b "another key") .SingleQuote, .Value, .Scalar (b "another value") .SingleQuote, .FlowSequenceEnd, .StreamEnd]
    (.ok none) = true := by decide +kernel

/-- `/repo/src/scanner/tests/collection.rs:313`: `flow_sequence_plain`. -/
example : reads "[a key: a value,another key: another value]"
    [.StreamStart .UTF8, .FlowSequenceStart, .Key, .Scalar (b "a key") .Plain, .Value, .Scalar (b "a value") .Plain, .FlowEntry, .Key, .Scalar (b "another key") .Plain, .Value, .Scalar (b "another value") .Plain, .FlowSequenceEnd, .StreamEnd]
    (.ok none) = true := by decide +kernel

/-- `/repo/src/scanner/tests/collection.rs:337`: `flow_sequence_plain_abnormal`. -/
example : reads "[-: -123,not# a comment  :  (-%!&*@`|>+-)]"
    [.StreamStart .UTF8, .FlowSequenceStart, .Key, .Scalar (b "-") .Plain, .Value, .Scalar (b "-123") .Plain, .FlowEntry, .Key, .Scalar (b "not# a comment") .Plain, .Value, .Scalar (b "(-%!&*@`|>+-)") .Plain, .FlowSequenceEnd, .StreamEnd]
    (.ok none) = true := by decide +kernel

/-- `/repo/src/scanner/tests/collection.rs:361`: `flow_nested`. -/
example : reads "[\n            {'a map': 'of values'},\n            {'inside': 'a sequence'},\n            'a string',\n            ['and', 'lists','of', 'strings'],\n            {'wow': {'this': {'nesting': {'goes': ['deep', '!']}}}}\n        ]"
    [.StreamStart .UTF8, .FlowSequenceStart, .FlowMappingStart, .Key, .Scalar (b "a map") .SingleQuote, .Value, .Scalar (b "of values") .SingleQuote, .FlowMappingEnd, .FlowEntry, .FlowMappingStart, .Key, .Scalar (b "inside") .SingleQuote, .Value, .Scalar (b "a sequence") .SingleQuote, .FlowMappingEnd, .FlowEntry, .Scalar (b "a string") .SingleQuote, .FlowEntry, .FlowSequenceStart, .Scalar (b "and") .SingleQuote, .FlowEntry, .Scalar (b "lists") .SingleQuote, .FlowEntry, .Scalar (b "of") .SingleQuote, .FlowEntry, .Scalar (b "strings") .SingleQuote, .FlowSequenceEnd, .FlowEntry, .FlowMappingStart, .Key, .Scalar (b "wow") .SingleQuote, .Value, .FlowMappingStart, .Key, .Scalar (b "this") .SingleQuote, .Value, .FlowMappingStart, .Key, .Scalar (b "nesting") .SingleQuote, .Value, .FlowMappingStart, .Key, .Scalar (b "goes") .SingleQuote, .Value, .FlowSequenceStart, .Scalar (b "deep") .SingleQuote, .FlowEntry, .Scalar (b "!") .SingleQuote, .FlowSequenceEnd, .FlowMappingEnd, .FlowMappingEnd, .FlowMappingEnd, .FlowMappingEnd, .FlowSequenceEnd, .StreamEnd]
    (.ok none) = true := by decide +kernel

/-- `/repo/src/scanner/tests/complex.rs:18`: `no_map_sequence_scalar`. -/
example : reads "\n\n---\n\n%YAML           1.2                     # our document's version.\n%TAG !          primary:namespace       # our doc's primary tag\n%TAG !!         secondary/namespace:    # our doc's secondary tag\n%TAG !named0!   named0:                 # A named tag\n\n&ref\n*ref\n\n\n\n...\n\n"
    [.StreamStart .UTF8, .DocumentStart, .VersionDirective 1 2, .TagDirective (b "!") (b "primary:namespace"), .TagDirective (b "!!") (b "secondary/namespace:"), .TagDirective (b "!named0!") (b "named0:"), .Anchor (b "ref"), .Alias (b "ref"), .DocumentEnd, .StreamEnd]
    (.ok none) = true := by decide +kernel

/-- `/repo/src/scanner/tests/complex.rs:57`: `no_map_sequence`. -/
example : reads "\n\n%YAML           1.2                     # our document's version.\n%TAG !          primary:namespace       # our doc's primary tag\n%TAG !!         secondary/namespace:    # our doc's secondary tag\n%TAG !named0!   named0:                 # A named tag\n---\n\n!!str \"an anchor\": &ref !value 'some   \n                                value'\n!!str 'an alias': *ref\n\n...\n\n"
    [.StreamStart .UTF8, .VersionDirective 1 2, .TagDirective (b "!") (b "primary:namespace"), .TagDirective (b "!!") (b "secondary/namespace:"), .TagDirective (b "!named0!") (b "named0:"), .DocumentStart, .BlockMappingStart, .Key, .Tag (b "!!") (b "str"), .Scalar (b "an anchor") .DoubleQuote, .Value, .Anchor (b "ref"), .Tag (b "!") (b "value"), .Scalar (b "some value") .SingleQuote, .Key, .Tag (b "!!") (b "str"), .Scalar (b "an alias") .SingleQuote, .Value, .Alias (b "ref"), .BlockEnd, .DocumentEnd, .StreamEnd]
    (.ok none) = true := by decide +kernel

/-- `/repo/src/scanner/tests/complex.rs:104`: `plain`. -/
example : reads "\n\n---\n- [\n    key: value,\n        indented: value,\n        {an object: inside a sequence},\n        [sequence inception!]\n]\n-   lets do it: &val as block,\n    can we :\n        build it:\n            higher?: *val\n    yes: we\n    can: baby\n\n                    "
    [.StreamStart .UTF8, .DocumentStart, .BlockSequenceStart, .BlockEntry, .FlowSequenceStart, .Key, .Scalar (b "key") .Plain, .Value, .Scalar (b "value") .Plain, .FlowEntry, .Key, .Scalar (b "indented") .Plain, .Value, .Scalar (b "value") .Plain, .FlowEntry, .FlowMappingStart, .Key, .Scalar (b "an object") .Plain, .Value, .Scalar (b "inside a sequence") .Plain, .FlowMappingEnd, .FlowEntry, .FlowSequenceStart, .Scalar (b "sequence inception!") .Plain, .FlowSequenceEnd, .FlowSequenceEnd, .BlockEntry, .BlockMappingStart, .Key, .Scalar (b "lets do it") .Plain, .Value, .Anchor (b "val"), .Scalar (b "as block,") .Plain, .Key, .Scalar (b "can we") .Plain, .Value, .BlockMappingStart, .Key, .Scalar (b "build it") .Plain, .Value, .BlockMappingStart, .Key, .Scalar (b "higher?") .Plain, .Value, .Alias (b "val"), .BlockEnd, .BlockEnd, .Key, .Scalar (b "yes") .Plain, .Value, .Scalar (b "we") .Plain, .Key, .Scalar (b "can") .Plain, .Value, .Scalar (b "baby") .Plain, .BlockEnd, .BlockEnd, .StreamEnd]
    (.ok none) = true := by decide +kernel

/-- `/repo/src/scanner/tests/complex.rs:192`: `zero_indent_multilevel_coalesce`. -/
example : reads "\nObjs:\n- UnitConfigName: Enemy_Lizalfos_Dark\n  HashId: 0x43ef248b\n- UnitConfigName: Item_Fish_21\n  HashId: 0x453cc5d0 # Last Ok\nRails: # Error at the beginning of this line\n- Blah: SomeRail\n  HashId: 0x24f8f8f8\n"
    [.StreamStart .UTF8, .BlockMappingStart, .Key, .Scalar (b "Objs") .Plain, .Value, .BlockSequenceStart, .BlockEntry, .BlockMappingStart, .Key, .Scalar (b "UnitConfigName") .Plain, .Value, .Scalar (b "Enemy_Lizalfos_Dark") .Plain, .Key, .Scalar (b "HashId") .Plain, .Value, .Scalar (b "0x43ef248b") .Plain, .BlockEnd, .BlockEntry, .BlockMappingStart, .Key, .Scalar (b "UnitConfigName") .Plain, .Value, .Scalar (b "Item_Fish_21") .Plain, .Key, .Scalar (b "HashId") .Plain, .Value, .Scalar (b "0x453cc5d0") .Plain, .BlockEnd, .BlockEnd, .Key, .Scalar (b "Rails") .Plain, .Value, .BlockSequenceStart, .BlockEntry, .BlockMappingStart, .Key, .Scalar (b "Blah") .Plain, .Value, .Scalar (b "SomeRail") .Plain, .Key, .Scalar (b "HashId") .Plain, .Value, .Scalar (b "0x24f8f8f8") .Plain, .BlockEnd, .BlockEnd, .BlockEnd, .StreamEnd]
    (.ok none) = true := by decide +kernel

/-- `/repo/src/scanner/tests/complex.rs:262`: `zero_indent_multilevel`. -/
example : reads "\nZ1:\n- Z2:\n  - N1:\n      - N2:\n          - Z3:\n            - end\n"
    [.StreamStart .UTF8, .BlockMappingStart, .Key, .Scalar (b "Z1") .Plain, .Value, .BlockSequenceStart, .BlockEntry, .BlockMappingStart, .Key, .Scalar (b "Z2") .Plain, .Value, .BlockSequenceStart, .BlockEntry, .BlockMappingStart, .Key, .Scalar (b "N1") .Plain, .Value, .BlockSequenceStart, .BlockEntry, .BlockMappingStart, .Key, .Scalar (b "N2") .Plain, .Value, .BlockSequenceStart, .BlockEntry, .BlockMappingStart, .Key, .Scalar (b "Z3") .Plain, .Value, .BlockSequenceStart, .BlockEntry, .Scalar (b "end") .Plain, .BlockEnd, .BlockEnd, .BlockEnd, .BlockEnd, .BlockEnd, .BlockEnd, .BlockEnd, .BlockEnd, .BlockEnd, .BlockEnd, .StreamEnd]
    (.ok none) = true := by decide +kernel

/-- `/repo/src/scanner/tests/directive.rs:14`: `directive_version`. -/
example : reads "%YAML   1.1 # a comment\n"
    [.StreamStart .UTF8, .VersionDirective 1 1, .StreamEnd]
    (.ok none) = true := by decide +kernel

/-- `/repo/src/scanner/tests/directive.rs:30`: `directive_version_large`. -/
example : reads "%YAML   121.80 # a comment\n"
    [.StreamStart .UTF8, .VersionDirective 121 80, .StreamEnd]
    (.ok none) = true := by decide +kernel

/-- `/repo/src/scanner/tests/directive.rs:46`: `directive_version_invalid`. -/
example : reads "%YAML   foo.bar # a comment\n"
    [.StreamStart .UTF8]
    (.err (.Scanner .InvalidVersion)) = true := by decide +kernel

/-- `/repo/src/scanner/tests/directive.rs:60`: `directive_tag_named`. -/
example : reads "%TAG !named! my:cool:tag # a comment\n"
    [.StreamStart .UTF8, .TagDirective (b "!named!") (b "my:cool:tag"), .StreamEnd]
    (.ok none) = true := by decide +kernel

/-- `/repo/src/scanner/tests/directive.rs:76`: `directive_tag_primary`. -/
example : reads "%TAG ! my:cool:tag\n"
    [.StreamStart .UTF8, .TagDirective (b "!") (b "my:cool:tag"), .StreamEnd]
    (.ok none) = true := by decide +kernel

/-- `/repo/src/scanner/tests/directive.rs:92`: `directive_tag_secondary`. -/
example : reads "%TAG !! @my/crazy&tag:  \n"
    [.StreamStart .UTF8, .TagDirective (b "!!") (b "@my/crazy&tag:"), .StreamEnd]
    (.ok none) = true := by decide +kernel

/-- `/repo/src/scanner/tests/directive.rs:108`: `directive_tag_ending_ws`. -/
example : reads "%TAG !! @my/crazy&tag:"
    [.StreamStart .UTF8]
    (.err (.Scanner .UnexpectedEOF)) = true := by decide +kernel

/-- `/repo/src/scanner/tests/directive.rs:122`: `directive_tag_percent_encoding`. -/
example : reads "%TAG !! :My:%C6%86razy:T%c8%82g:\n"
    [.StreamStart .UTF8, .TagDirective (b "!!") (b ":My:Ɔrazy:TȂg:"), .StreamEnd]
    (.ok none) = true := by decide +kernel

/-- `/repo/src/scanner/tests/document.rs:14`: `multi_document_empty`. -/
example : reads "---\n---\n---"
    [.StreamStart .UTF8, .DocumentStart, .DocumentStart, .DocumentStart, .StreamEnd]
    (.ok none) = true := by decide +kernel

/-- `/repo/src/scanner/tests/document.rs:32`: `document_markers`. -/
example : reads "\n---\n   \n..."
    [.StreamStart .UTF8, .DocumentStart, .DocumentEnd, .StreamEnd]
    (.ok none) = true := by decide +kernel

/-- `/repo/src/scanner/tests/document.rs:49`: `comment_in_document_markers`. -/
example : reads "---\n# abcdefg \n  # another comment     \n..."
    [.StreamStart .UTF8, .DocumentStart, .DocumentEnd, .StreamEnd]
    (.ok none) = true := by decide +kernel

/-- `/repo/src/scanner/tests/key.rs:15`: `explicit_simple`. -/
example : reads "\n? 'an explicit key'\n: 'a value'\n"
    [.StreamStart .UTF8, .BlockMappingStart, .Key, .Scalar (b "an explicit key") .SingleQuote, .Value, .Scalar (b "a value") .SingleQuote, .BlockEnd, .StreamEnd]
    (.ok none) = true := by decide +kernel

/-- `/repo/src/scanner/tests/key.rs:37`: `explicit_mapping_missing_value`. -/
example : reads "? 'sub mapping key': 'sub mapping value'"
    [.StreamStart .UTF8, .BlockMappingStart, .Key, .BlockMappingStart, .Key, .Scalar (b "sub mapping key") .SingleQuote, .Value, .Scalar (b "sub mapping value") .SingleQuote, .BlockEnd, .BlockEnd, .StreamEnd]
    (.ok none) = true := by decide +kernel

/-- `/repo/src/scanner/tests/key.rs:62`: `explicit_mapping`. -/
example : reads "\n? 'key mapping': 'value'\n  'another': 'value'\n: 'bar'\n"
    [.StreamStart .UTF8, .BlockMappingStart, .Key, .BlockMappingStart, .Key, .Scalar (b "key mapping") .SingleQuote, .Value, .Scalar (b "value") .SingleQuote, .Key, .Scalar (b "another") .SingleQuote, .Value, .Scalar (b "value") .SingleQuote, .BlockEnd, .Value, .Scalar (b "bar") .SingleQuote, .BlockEnd, .StreamEnd]
    (.ok none) = true := by decide +kernel

/-- `/repo/src/scanner/tests/key.rs:136`: `stale_after_newline`. -/
example : reads "\n'a multi-line\n key': 'a value'\n"
    [.StreamStart .UTF8]
    (.err (.Scanner .InvalidValue)) = true := by decide +kernel

/-- `/repo/src/scanner/tests/scalar.rs:21`: `scalar_simple`. -/
example : reads "hello from a plain scalar!"
    [.StreamStart .UTF8, .Scalar (b "hello from a plain scalar!") .Plain, .StreamEnd]
    (.ok none) = true := by decide +kernel

/-- `/repo/src/scanner/tests/scalar.rs:37`: `scalar_starting_indicator`. -/
example : reads "-a key-: ?value\n:: :value"
    [.StreamStart .UTF8, .BlockMappingStart, .Key, .Scalar (b "-a key-") .Plain, .Value, .Scalar (b "?value") .Plain, .Key, .Scalar (b ":") .Plain, .Value, .Scalar (b ":value") .Plain, .BlockEnd, .StreamEnd]
    (.ok none) = true := by decide +kernel

/-- `/repo/src/scanner/tests/scalar.rs:69`: `scalar_single_simple`. -/
example : reads "'hello world, single quoted flow scalar'"
    [.StreamStart .UTF8, .Scalar (b "hello world, single quoted flow scalar") .SingleQuote, .StreamEnd]
    (.ok none) = true := by decide +kernel

/-- `/repo/src/scanner/tests/scalar.rs:85`: `scalar_single_complex`. -/
example : reads "'line0\n            line1\n            \n            line3\n            line4'"
    [.StreamStart .UTF8, .Scalar (b "line0 line1\nline3 line4") .SingleQuote, .StreamEnd]
    (.ok none) = true := by decide +kernel

/-- `/repo/src/scanner/tests/scalar.rs:105`: `scalar_double_simple`. -/
example : reads "\"line0 line1\\nline3\\tline4\""
    [.StreamStart .UTF8, .Scalar (b "line0 line1\nline3\tline4") .DoubleQuote, .StreamEnd]
    (.ok none) = true := by decide +kernel

/-- `/repo/src/scanner/tests/scalar.rs:121`: `scalar_double_complex`. -/
example : reads "\"line0\n            lin\\\n            e1\n            \n            line3\n            line4\""
    [.StreamStart .UTF8, .Scalar (b "line0 line1\nline3 line4") .DoubleQuote, .StreamEnd]
    (.ok none) = true := by decide +kernel

/-- `/repo/src/scanner/tests/scalar.rs:142`: `tag_scalar_complex`. -/
example : reads "\n        !!str\n        \"line0\n            lin\\\n            e1\n            \n            line3\n        line4\""
    [.StreamStart .UTF8, .Tag (b "!!") (b "str"), .Scalar (b "line0 line1\nline3 line4") .DoubleQuote, .StreamEnd]
    (.ok none) = true := by decide +kernel

/-- `/repo/src/scanner/tests/scalar.rs:173`: `scalar_literal_simple`. -/
example : reads "\na key: |  # and a comment!\n    a block scalar,\n    separated by new lines\n"
    [.StreamStart .UTF8, .BlockMappingStart, .Key, .Scalar (b "a key") .Plain, .Value, .Scalar (b "a block scalar,\nseparated by new lines\n") .Literal, .BlockEnd, .StreamEnd]
    (.ok none) = true := by decide +kernel

/-- `/repo/src/scanner/tests/scalar.rs:198`: `scalar_folded_simple`. -/
example : reads "\na block scalar: >-  # and a comment!\n    with lines folded,\n    to a space\n"
    [.StreamStart .UTF8, .BlockMappingStart, .Key, .Scalar (b "a block scalar") .Plain, .Value, .Scalar (b "with lines folded, to a space") .Folded, .BlockEnd, .StreamEnd]
    (.ok none) = true := by decide +kernel

/-- `/repo/src/scanner/tests/tag.rs:14`: `primary`. -/
example : reads "!a "
    [.StreamStart .UTF8, .Tag (b "!") (b "a"), .StreamEnd]
    (.ok none) = true := by decide +kernel

/-- `/repo/src/scanner/tests/tag.rs:30`: `secondary`. -/
example : reads "!!str "
    [.StreamStart .UTF8, .Tag (b "!!") (b "str"), .StreamEnd]
    (.ok none) = true := by decide +kernel

/-- `/repo/src/scanner/tests/tag.rs:46`: `named`. -/
example : reads "    !named!tag-suffix "
    [.StreamStart .UTF8, .Tag (b "!named!") (b "tag-suffix"), .StreamEnd]
    (.ok none) = true := by decide +kernel

/-- `/repo/src/scanner/tests/tag.rs:62`: `escaped`. -/
example : reads "!n!my:%3D%3descaped: "
    [.StreamStart .UTF8, .Tag (b "!n!") (b "my:==escaped:"), .StreamEnd]
    (.ok none) = true := by decide +kernel

/-- `/repo/src/scanner/tests/tag.rs:78`: `non_resolving`. -/
example : reads "! "
    [.StreamStart .UTF8, .Tag (b "!") (b ""), .StreamEnd]
    (.ok none) = true := by decide +kernel

/-- `/repo/src/scanner/tests/whitespace.rs:15`: `empty`. -/
example : reads ""
    [.StreamStart .UTF8, .StreamEnd]
    (.ok none) = true := by decide +kernel

/-- `/repo/src/scanner/tests/whitespace.rs:56`: `eat_comments`. -/
example : reads "  # a comment\n\n#one two three\n       #four!"
    [.StreamStart .UTF8, .StreamEnd]
    (.ok none) = true := by decide +kernel

end Yary.Check
