import Verif.Check.Scanner
import Verif.Props.Parser

/-!
# The unit tests of the parser

The tokens and events of the tests in `/repo/src/event/parser/mod.rs`, parsed by the model. The tag
directives of a document are a map, here they are compared as a set.
These are tests of the model and not of the theorems: they show that it computes what the tests
of the code expect. -/

namespace Yary.Check

open Spec

/-- The tokens, all at the position 0. -/
def entries (ts : List Token) : List TokenEntry := ts.map fun t => ⟨.Token t, 0⟩

/-- The reports of `n` calls. -/
def calls : Nat → PS (List TokenEntry) → List (Out ParseError (Option Event))
  | 0, _ => []
  | n + 1, s =>
    let r := Parser.nextEvent listDrive 50 s
    r.1 :: calls n r.2

/-- Whether the event is this one. -/
def isEvent (e : Event) (d : EventData) : Bool :=
  match e.data, d with
  | .DocumentStart d i, .DocumentStart d' i' =>
    decide (d.version = d'.version) && decide (i = i') && d.tags.all (d'.tags.contains ·) && d'.tags.all (d.tags.contains ·)
  | x, y => decide (x = y)

/-- Whether the reports are these events, and then the last report. -/
def areEvents : List (Out ParseError (Option Event)) → List EventData → Out ParseError (Option Event) → Bool
  | [r], [], last => decide (r = last)
  | .ok (some e) :: rs, d :: ds, last => isEvent e d && areEvents rs ds last
  | _, _, _ => false

/-- The tokens are parsed as the events, and then the last report. -/
def parses (ts : List Token) (ds : List EventData) (last : Out ParseError (Option Event)) : Bool :=
  areEvents (calls (ds.length + 1) (start (entries ts))) ds last

/-- `/repo/src/event/parser/mod.rs:1388`: `empty`. -/
example : parses [.StreamStart .UTF8, .StreamEnd]
    [.StreamStart .UTF8, .DocumentStart ⟨defaultVersion, defaultTags⟩ true, .DocumentEnd true, .StreamEnd]
    (.ok none) = true := by decide +kernel

/-- `/repo/src/event/parser/mod.rs:1402`: `empty_document`. -/
example : parses [.StreamStart .UTF8, .DocumentStart, .DocumentEnd, .StreamEnd]
    [.StreamStart .UTF8, .DocumentStart ⟨defaultVersion, defaultTags⟩ false, .DocumentEnd false, .StreamEnd]
    (.ok none) = true := by decide +kernel

/-- `/repo/src/event/parser/mod.rs:1421`: `simple_scalar`. -/
example : parses [.StreamStart .UTF8, .Scalar (b "Scalar only YAML document") .SingleQuote, .StreamEnd]
    [.StreamStart .UTF8, .DocumentStart ⟨defaultVersion, defaultTags⟩ true, .Scalar ⟨none, none, .Root⟩ (.Eager ⟨(b "Scalar only YAML document"), .SingleQuote⟩), .DocumentEnd true, .StreamEnd]
    (.ok none) = true := by decide +kernel

/-- `/repo/src/event/parser/mod.rs:1440`: `simple_sequence`. -/
example : parses [.StreamStart .UTF8, .BlockSequenceStart, .BlockEntry, .Scalar (b "Entry #1") .DoubleQuote, .BlockEntry, .Scalar (b "Entry #2") .DoubleQuote, .BlockEnd, .StreamEnd]
    [.StreamStart .UTF8, .DocumentStart ⟨defaultVersion, defaultTags⟩ true, .SequenceStart ⟨none, none, .Root⟩, .Scalar ⟨none, none, .Entry⟩ (.Eager ⟨(b "Entry #1"), .DoubleQuote⟩), .Scalar ⟨none, none, .Entry⟩ (.Eager ⟨(b "Entry #2"), .DoubleQuote⟩), .SequenceEnd, .DocumentEnd true, .StreamEnd]
    (.ok none) = true := by decide +kernel

/-- `/repo/src/event/parser/mod.rs:1467`: `simple_mapping`. -/
example : parses [.StreamStart .UTF8, .BlockMappingStart, .Key, .Scalar (b "a key") .Plain, .Value, .Scalar (b "a value") .Plain, .BlockEnd, .StreamEnd]
    [.StreamStart .UTF8, .DocumentStart ⟨defaultVersion, defaultTags⟩ true, .MappingStart ⟨none, none, .Root⟩, .Scalar ⟨none, none, .Key⟩ (.Eager ⟨(b "a key"), .Plain⟩), .Scalar ⟨none, none, .Value⟩ (.Eager ⟨(b "a value"), .Plain⟩), .MappingEnd, .DocumentEnd true, .StreamEnd]
    (.ok none) = true := by decide +kernel

/-- `/repo/src/event/parser/mod.rs:1494`: `tags`. -/
example : parses [.StreamStart .UTF8, .Tag (b "!!") (b "map"), .BlockMappingStart, .Key, .Tag (b "!!") (b "str"), .Scalar (b "a key") .Plain, .Value, .Tag (b "!!") (b "str"), .Scalar (b "a value") .Plain, .BlockEnd, .StreamEnd]
    [.StreamStart .UTF8, .DocumentStart ⟨defaultVersion, defaultTags⟩ true, .MappingStart ⟨none, some ((b "!!"), (b "map")), .Root⟩, .Scalar ⟨none, some ((b "!!"), (b "str")), .Key⟩ (.Eager ⟨(b "a key"), .Plain⟩), .Scalar ⟨none, some ((b "!!"), (b "str")), .Value⟩ (.Eager ⟨(b "a value"), .Plain⟩), .MappingEnd, .DocumentEnd true, .StreamEnd]
    (.ok none) = true := by decide +kernel

/-- `/repo/src/event/parser/mod.rs:1524`: `scalar_tag_non_resolvable`. -/
example : parses [.StreamStart .UTF8, .Tag (b "!") (b ""), .Scalar (b "Scalar with non-resolvable tag") .DoubleQuote, .StreamEnd]
    [.StreamStart .UTF8, .DocumentStart ⟨defaultVersion, defaultTags⟩ true, .Scalar ⟨none, none, .Root⟩ (.Eager ⟨(b "Scalar with non-resolvable tag"), .DoubleQuote⟩), .DocumentEnd true, .StreamEnd]
    (.ok none) = true := by decide +kernel

/-- `/repo/src/event/parser/mod.rs:1545`: `error_undefined_tag`. -/
example : parses [.StreamStart .UTF8, .Tag (b "!unknown!") (b "bad-tag-handle"), .Scalar (b "Scalar with non-resolvable tag") .DoubleQuote, .StreamEnd]
    [.StreamStart .UTF8, .DocumentStart ⟨defaultVersion, defaultTags⟩ true]
    (.err .UndefinedTag) = true := by decide +kernel

/-- `/repo/src/event/parser/mod.rs:1564`: `flow_sequence_compact_mapping`. -/
example : parses [.StreamStart .UTF8, .FlowSequenceStart, .Key, .Scalar (b "compact mapping key") .DoubleQuote, .Value, .Scalar (b "compact mapping value") .DoubleQuote, .FlowSequenceEnd, .StreamEnd]
    [.StreamStart .UTF8, .DocumentStart ⟨defaultVersion, defaultTags⟩ true, .SequenceStart ⟨none, none, .Root⟩, .MappingStart ⟨none, none, .Entry⟩, .Scalar ⟨none, none, .Key⟩ (.Eager ⟨(b "compact mapping key"), .DoubleQuote⟩), .Scalar ⟨none, none, .Value⟩ (.Eager ⟨(b "compact mapping value"), .DoubleQuote⟩), .MappingEnd, .SequenceEnd, .DocumentEnd true, .StreamEnd]
    (.ok none) = true := by decide +kernel

/-- `/repo/src/event/parser/mod.rs:1595`: `block_sequence_entry_implied`. -/
example : parses [.StreamStart .UTF8, .BlockSequenceStart, .BlockEntry, .BlockEntry, .Scalar (b "Entry #2") .SingleQuote, .BlockEntry, .BlockEntry, .Scalar (b "Entry #4") .Plain, .BlockEntry, .BlockEnd, .StreamEnd]
    [.StreamStart .UTF8, .DocumentStart ⟨defaultVersion, defaultTags⟩ true, .SequenceStart ⟨none, none, .Root⟩, .Scalar ⟨none, none, .Entry⟩ (.Eager ⟨(b ""), .Plain⟩), .Scalar ⟨none, none, .Entry⟩ (.Eager ⟨(b "Entry #2"), .SingleQuote⟩), .Scalar ⟨none, none, .Entry⟩ (.Eager ⟨(b ""), .Plain⟩), .Scalar ⟨none, none, .Entry⟩ (.Eager ⟨(b "Entry #4"), .Plain⟩), .Scalar ⟨none, none, .Entry⟩ (.Eager ⟨(b ""), .Plain⟩), .SequenceEnd, .DocumentEnd true, .StreamEnd]
    (.ok none) = true := by decide +kernel

/-- `/repo/src/event/parser/mod.rs:1631`: `block_mapping_key_implied`. -/
example : parses [.StreamStart .UTF8, .BlockMappingStart, .Key, .Value, .Scalar (b "value 1") .Plain, .Key, .Scalar (b "key 2") .Plain, .Value, .Scalar (b "value 2") .Plain, .Key, .Value, .Scalar (b "value 3") .Plain, .BlockEnd, .StreamEnd]
    [.StreamStart .UTF8, .DocumentStart ⟨defaultVersion, defaultTags⟩ true, .MappingStart ⟨none, none, .Root⟩, .Scalar ⟨none, none, .Key⟩ (.Eager ⟨(b ""), .Plain⟩), .Scalar ⟨none, none, .Value⟩ (.Eager ⟨(b "value 1"), .Plain⟩), .Scalar ⟨none, none, .Key⟩ (.Eager ⟨(b "key 2"), .Plain⟩), .Scalar ⟨none, none, .Value⟩ (.Eager ⟨(b "value 2"), .Plain⟩), .Scalar ⟨none, none, .Key⟩ (.Eager ⟨(b ""), .Plain⟩), .Scalar ⟨none, none, .Value⟩ (.Eager ⟨(b "value 3"), .Plain⟩), .MappingEnd, .DocumentEnd true, .StreamEnd]
    (.ok none) = true := by decide +kernel

/-- `/repo/src/event/parser/mod.rs:1670`: `block_mapping_value_implied`. -/
example : parses [.StreamStart .UTF8, .BlockMappingStart, .Key, .Scalar (b "key 1") .Plain, .Value, .Key, .Scalar (b "key 2") .Plain, .Value, .Scalar (b "value 2") .Plain, .Key, .Scalar (b "key 3") .Plain, .Key, .Scalar (b "key 4") .Plain, .Value, .BlockEnd, .StreamEnd]
    [.StreamStart .UTF8, .DocumentStart ⟨defaultVersion, defaultTags⟩ true, .MappingStart ⟨none, none, .Root⟩, .Scalar ⟨none, none, .Key⟩ (.Eager ⟨(b "key 1"), .Plain⟩), .Scalar ⟨none, none, .Value⟩ (.Eager ⟨(b ""), .Plain⟩), .Scalar ⟨none, none, .Key⟩ (.Eager ⟨(b "key 2"), .Plain⟩), .Scalar ⟨none, none, .Value⟩ (.Eager ⟨(b "value 2"), .Plain⟩), .Scalar ⟨none, none, .Key⟩ (.Eager ⟨(b "key 3"), .Plain⟩), .Scalar ⟨none, none, .Value⟩ (.Eager ⟨(b ""), .Plain⟩), .Scalar ⟨none, none, .Key⟩ (.Eager ⟨(b "key 4"), .Plain⟩), .Scalar ⟨none, none, .Value⟩ (.Eager ⟨(b ""), .Plain⟩), .MappingEnd, .DocumentEnd true, .StreamEnd]
    (.ok none) = true := by decide +kernel

/-- `/repo/src/event/parser/mod.rs:1715`: `flow_sequence_entry_mapping_key_implied`. -/
example : parses [.StreamStart .UTF8, .FlowSequenceStart, .Key, .Value, .Scalar (b "compact mapping value") .DoubleQuote, .FlowSequenceEnd, .StreamEnd]
    [.StreamStart .UTF8, .DocumentStart ⟨defaultVersion, defaultTags⟩ true, .SequenceStart ⟨none, none, .Root⟩, .MappingStart ⟨none, none, .Entry⟩, .Scalar ⟨none, none, .Key⟩ (.Eager ⟨(b ""), .Plain⟩), .Scalar ⟨none, none, .Value⟩ (.Eager ⟨(b "compact mapping value"), .DoubleQuote⟩), .MappingEnd, .SequenceEnd, .DocumentEnd true, .StreamEnd]
    (.ok none) = true := by decide +kernel

/-- `/repo/src/event/parser/mod.rs:1746`: `flow_sequence_entry_mapping_value_implied`. -/
example : parses [.StreamStart .UTF8, .FlowSequenceStart, .Key, .Scalar (b "compact mapping key") .DoubleQuote, .Value, .FlowSequenceEnd, .StreamEnd]
    [.StreamStart .UTF8, .DocumentStart ⟨defaultVersion, defaultTags⟩ true, .SequenceStart ⟨none, none, .Root⟩, .MappingStart ⟨none, none, .Entry⟩, .Scalar ⟨none, none, .Key⟩ (.Eager ⟨(b "compact mapping key"), .DoubleQuote⟩), .Scalar ⟨none, none, .Value⟩ (.Eager ⟨(b ""), .Plain⟩), .MappingEnd, .SequenceEnd, .DocumentEnd true, .StreamEnd]
    (.ok none) = true := by decide +kernel

/-- `/repo/src/event/parser/mod.rs:1777`: `flow_mapping_key_implied`. -/
example : parses [.StreamStart .UTF8, .FlowMappingStart, .Key, .Value, .Scalar (b "value 1") .SingleQuote, .FlowMappingEnd, .StreamEnd]
    [.StreamStart .UTF8, .DocumentStart ⟨defaultVersion, defaultTags⟩ true, .MappingStart ⟨none, none, .Root⟩, .Scalar ⟨none, none, .Key⟩ (.Eager ⟨(b ""), .Plain⟩), .Scalar ⟨none, none, .Value⟩ (.Eager ⟨(b "value 1"), .SingleQuote⟩), .MappingEnd, .DocumentEnd true, .StreamEnd]
    (.ok none) = true := by decide +kernel

/-- `/repo/src/event/parser/mod.rs:1804`: `flow_mapping_value_implied`. -/
example : parses [.StreamStart .UTF8, .FlowMappingStart, .Key, .Scalar (b "key 1") .SingleQuote, .Value, .FlowMappingEnd, .StreamEnd]
    [.StreamStart .UTF8, .DocumentStart ⟨defaultVersion, defaultTags⟩ true, .MappingStart ⟨none, none, .Root⟩, .Scalar ⟨none, none, .Key⟩ (.Eager ⟨(b "key 1"), .SingleQuote⟩), .Scalar ⟨none, none, .Value⟩ (.Eager ⟨(b ""), .Plain⟩), .MappingEnd, .DocumentEnd true, .StreamEnd]
    (.ok none) = true := by decide +kernel

/-- `/repo/src/event/parser/mod.rs:1831`: `flow_mapping_key_singleton`. -/
example : parses [.StreamStart .UTF8, .FlowMappingStart, .Scalar (b "singleton key") .SingleQuote, .FlowMappingEnd, .StreamEnd]
    [.StreamStart .UTF8, .DocumentStart ⟨defaultVersion, defaultTags⟩ true, .MappingStart ⟨none, none, .Root⟩, .Scalar ⟨none, none, .Key⟩ (.Eager ⟨(b "singleton key"), .SingleQuote⟩), .Scalar ⟨none, none, .Value⟩ (.Eager ⟨(b ""), .Plain⟩), .MappingEnd, .DocumentEnd true, .StreamEnd]
    (.ok none) = true := by decide +kernel

/-- `/repo/src/event/parser/mod.rs:1858`: `node_anchor_implied`. -/
example : parses [.StreamStart .UTF8, .Anchor (b "empty"), .StreamEnd]
    [.StreamStart .UTF8, .DocumentStart ⟨defaultVersion, defaultTags⟩ true, .Scalar ⟨some (b "empty"), none, .Root⟩ (.Eager ⟨(b ""), .Plain⟩), .DocumentEnd true, .StreamEnd]
    (.ok none) = true := by decide +kernel

/-- `/repo/src/event/parser/mod.rs:1878`: `node_tag_implied`. -/
example : parses [.StreamStart .UTF8, .Tag (b "!!") (b "str"), .StreamEnd]
    [.StreamStart .UTF8, .DocumentStart ⟨defaultVersion, defaultTags⟩ true, .Scalar ⟨none, some ((b "!!"), (b "str")), .Root⟩ (.Eager ⟨(b ""), .Plain⟩), .DocumentEnd true, .StreamEnd]
    (.ok none) = true := by decide +kernel

/-- `/repo/src/event/parser/mod.rs:1898`: `multi_document_implied`. -/
example : parses [.StreamStart .UTF8, .DocumentStart, .Scalar (b "Document 1") .SingleQuote, .DocumentEnd, .Scalar (b "Document 2") .SingleQuote, .DocumentStart, .Scalar (b "Document 3") .SingleQuote, .DocumentStart, .Scalar (b "Document 4") .SingleQuote, .DocumentEnd, .Scalar (b "Document 5") .SingleQuote, .DocumentEnd, .StreamEnd]
    [.StreamStart .UTF8, .DocumentStart ⟨defaultVersion, defaultTags⟩ false, .Scalar ⟨none, none, .Root⟩ (.Eager ⟨(b "Document 1"), .SingleQuote⟩), .DocumentEnd false, .DocumentStart ⟨defaultVersion, defaultTags⟩ true, .Scalar ⟨none, none, .Root⟩ (.Eager ⟨(b "Document 2"), .SingleQuote⟩), .DocumentEnd true, .DocumentStart ⟨defaultVersion, defaultTags⟩ false, .Scalar ⟨none, none, .Root⟩ (.Eager ⟨(b "Document 3"), .SingleQuote⟩), .DocumentEnd true, .DocumentStart ⟨defaultVersion, defaultTags⟩ false, .Scalar ⟨none, none, .Root⟩ (.Eager ⟨(b "Document 4"), .SingleQuote⟩), .DocumentEnd false, .DocumentStart ⟨defaultVersion, defaultTags⟩ true, .Scalar ⟨none, none, .Root⟩ (.Eager ⟨(b "Document 5"), .SingleQuote⟩), .DocumentEnd false, .StreamEnd]
    (.ok none) = true := by decide +kernel

/-- `/repo/src/event/parser/mod.rs:1943`: `multi_document_directives`. -/
example : parses [.StreamStart .UTF8, .VersionDirective 1 2, .TagDirective (b "!test1!") (b "doc1.1"), .DocumentStart, .DocumentEnd, .TagDirective (b "!test1!") (b "doc2.1"), .VersionDirective 1 1, .TagDirective (b "!test2!") (b "doc2.2"), .DocumentStart, .DocumentEnd, .StreamEnd]
    [.StreamStart .UTF8, .DocumentStart ⟨⟨1, 2⟩, defaultTags ++ [((b "!test1!"), (b "doc1.1"))]⟩ false, .DocumentEnd false, .DocumentStart ⟨⟨1, 1⟩, defaultTags ++ [((b "!test1!"), (b "doc2.1")), ((b "!test2!"), (b "doc2.2"))]⟩ false, .DocumentEnd false, .StreamEnd]
    (.ok none) = true := by decide +kernel

end Yary.Check
