import Verif.Check.Scalars
import Verif.Spec.Calls
import Verif.Model.Scan.Owned

/-!
# Unit tests of the parts of the scanner

The inputs of the remaining unit tests in `/repo`, which are loops over data, computed by the model.
These are tests of the model and not of the theorems: they show that it computes what the tests
of the code expect. -/

namespace Yary.Check

open Spec

/-- `/repo/src/scanner/scalar/escape.rs:253`: `flow_escape_special`. -/
example : ([("\\0", [0]), ("\\a", [7]), ("\\b", [8]), ("\\t", [9]), ("\\\t", [9]), ("\\n", [10]), ("\\v", [11]), ("\\f", [12]),
    ("\\r", [13]), ("\\e", [0x1B]), ("\\ ", [0x20]), ("\\\"", b "\""), ("\\/", b "/"), ("\\\\", b "\\"), ("\\N", [0xC2, 0x85]),
    ("\\_", [0xC2, 0xA0]), ("\\L", [0xE2, 0x80, 0xA8]), ("\\P", [0xE2, 0x80, 0xA9])] : List (String × Str)).all
    (fun x => decide (flowUnescape {} (b x.1) = .ok (x.2, 2))) = true := by decide +kernel

/-- `/repo/src/scanner/scalar/escape.rs:303,370`: `flow_escape_hex`, `flow_escape_consumed`. -/
example : [("\\x64", "d"), ("\\x65", "e"), ("\\x7f", "\u007f"), ("\\xF7", "÷"), ("\\xB6", "¶"), ("\\xFF", "ÿ"), ("\\xC6", "Æ"),
    ("\\u2c61", "ⱡ"), ("\\u30C4", "ツ"), ("\\ua026", "ꀦ"), ("\\U000111E1", "𑇡")].all
    (fun x => decide (flowUnescape {} (b x.1) = .ok (b x.2, (b x.1).length))) = true := by decide +kernel

/-- `/repo/src/scanner/scalar/escape.rs:412`: `tag_uri_unescape_codepoint`. -/
example : ([("%C2%85", [0xC2, 0x85]), ("%c5%b4", [0xC5, 0xB4]), ("%E2%B1%bf", [0xE2, 0xB1, 0xBF]), ("%E2%B8%BF", [0xE2, 0xB8, 0xBF]),
    ("%f0%90%8f%95", [0xF0, 0x90, 0x8F, 0x95]), ("%F0%90%AD%81", [0xF0, 0x90, 0xAD, 0x81])] : List (String × Str)).all
    (fun x => decide (tagUriUnescape {} (b x.1) = .ok x.2 ∧ (b x.1).length = 3 * x.2.length)) = true := by decide +kernel

/-- `/repo/src/scanner/scalar/escape.rs:465`: `tag_uri_unescape_eof`. -/
example : tagUriUnescape {} (b "%C2%8") = .err .UnexpectedEOF := by decide +kernel

/-- `/repo/src/scanner/scalar/escape.rs:485`: `tag_uri_unescape_invalid`. -/
example : tagUriUnescape {} (b "\\xC285") = .err .UnknownEscape := by decide +kernel

/-- `/repo/src/scanner/scalar/flow.rs:500`: `flow_single_reject_document`. -/
example : ["'\n--- '", "'\n---\n'"].all (fun t => scans (fun o => scanFlow o true) t (.err .InvalidFlowScalar)) = true := by
  decide +kernel

/-- `/repo/src/scanner/scalar/flow.rs:526`: `flow_single_reject_eof`. -/
example : ["'end space ", "'", "'end word"].all (fun t => scans (fun o => scanFlow o true) t (.err .UnexpectedEOF)) = true := by
  decide +kernel

/-- How much of the text a scan reads. -/
def amount (text : String) : Out ScanError (MaybeToken × Cur) → Nat
  | .ok (_, c) => (b text).length - c.buf.length
  | _ => 0

/-- Scanning gives the token, eagerly and lazily, and reads that much. -/
def scansTo (f : SFlags → Cur → Out ScanError (MaybeToken × Cur)) (text : String) (token : Out ScanError Token) (n : Nat) : Bool :=
  scans f text token && [false, true].all fun l => decide (amount text (f { lazy := l } ⟨b text, {}⟩) = n)

/-- `/repo/src/scanner/scalar/plain.rs:502`: `end_on_doc`. -/
example : ["hello\n---\n", "hello\n... "].all (fun t => scansTo (fun o => scanPlain o 1 true) t (.ok (.Scalar (b "hello") .Plain)) 5) = true := by
  decide +kernel

/-- `/repo/src/scanner/scalar/plain.rs:524`: `end_on_comment`. -/
example : ["hello #", "hello\n#"].all (fun t => scansTo (fun o => scanPlain o 1 true) t (.ok (.Scalar (b "hello") .Plain)) 5) = true := by
  decide +kernel

/-- `/repo/src/scanner/scalar/plain.rs:692`: `flow_end_on_indicator`. -/
example : ["hello: ", "hello,", "hello[", "hello]", "hello{", "hello}"].all
    (fun t => scansTo (fun o => scanPlain o 1 false) t (.ok (.Scalar (b "hello") .Plain)) 5) = true := by decide +kernel

/-- `/repo/src/scanner/macros.rs:473,489`: `scanner_macro_isBreak`, `scanner_macro_isBreak_offset`. -/
example : ['\r', '\n', '\u0085', '\u2028', '\u2029'].all
    (fun c => isBreak (utf8 [c]) && isBreak (((List.replicate 4 0) ++ utf8 [c]).drop 4)) = true := by decide +kernel

/-- `/repo/src/scanner/macros.rs:506,522`: `scanner_macro_isBlank`, `scanner_macro_isBlank_offset`. -/
example : [' ', '\t'].all (fun c => isBlank (utf8 [c]) && isBlank (((List.replicate 4 0) ++ utf8 [c]).drop 4)) = true := by decide +kernel

/-- `/repo/src/scanner/macros.rs:539,561`: `scanner_macro_isWhiteSpaceZ`, `scanner_macro_isWhiteSpaceZ_offset`. -/
example : ([' ', '\t', '\r', '\n', '\u0085', '\u2028', '\u2029'].all
    (fun c => isWhiteSpaceZ (utf8 [c]) && isWhiteSpaceZ (((List.replicate 4 0) ++ utf8 [c]).drop 4)) &&
    isWhiteSpaceZ [] && isWhiteSpaceZ ((b "    ").drop 5)) = true := by decide +kernel

/-- The messages of `/repo/src/queue.rs` `mod tests`, ordered by the number only. -/
structure T where
  msg : String
  ord : Nat

instance : Ord T := ⟨compareOn T.ord⟩

/-- `/repo/src/queue.rs:315`: `stable_ordering`. -/
example : (((List.zip [0, 0, 0, 1, 2, 2] ["one", "two", "three", "four", "five", "six"]).foldl
    (fun q x => q.push ⟨x.2, x.1⟩) (Queue.new : Queue T)).intoSortedVec.map T.msg) = ["one", "two", "three", "four", "five", "six"] := by
  decide +kernel

/-- The markers a reader hands out until it is exhausted. -/
def markers (r : List (ROp × Out ReaderError (Option TokenEntry))) : List (Option Marker) :=
  r.map fun x => match x.2 with
    | .ok (some e) => some e.marker
    | _ => none

/-- The texts and markers of `/repo/src/reader/mod.rs:335-364`. -/
def readerData : List (String × List Marker) :=
  [("'a simple, root scalar'", [.StreamStart, .Scalar, .StreamEnd]),
   ("\n        - A\n        - YAML\n        - Sequence",
    [.StreamStart, .BlockSequenceStart, .BlockEntry, .Scalar, .BlockEntry, .Scalar, .BlockEntry, .Scalar, .BlockEnd, .StreamEnd]),
   ("{'A YAML': Mapping}", [.StreamStart, .FlowMappingStart, .Key, .Scalar, .Value, .Scalar, .FlowMappingEnd, .StreamEnd])]

/-- `/repo/src/reader/borrow.rs:78`: `test_reader!`, three tests. -/
example : readerData.all (fun x => decide (markers (history {} x.1.toList (List.replicate (x.2.length + 1) .pop)) = x.2.map some ++ [none])) = true := by
  decide +kernel

/-- `/repo/src/reader/owned.rs:300`: `test_reader!`, three tests. -/
example : readerData.all (fun x => decide (markers (runOps (ownedDrive chunkSize {}) (List.replicate (x.2.length + 1) .pop)
    (PeekReader.new ({ source := [(b x.1, none)] }, {}))).1 = x.2.map some ++ [none])) = true := by
  decide +kernel

end Yary.Check
