import Verif.Check.Scanner

/-!
# The unit tests of scalars

The texts and tokens of the tests in `/repo/src/scanner/scalar`, read by the model, eagerly and lazily.
These are tests of the model and not of the theorems: they show that it computes what the tests
of the code expect. -/

namespace Yary.Check

open Spec

/-- The token of a scan. -/
def scanned : Out ScanError (MaybeToken × Cur) → Out ScanError Token
  | .ok (.Token t, _) => .ok t
  | .ok (.Deferred l, _) => l.intoToken
  | .err e => .err e
  | .panic => .panic
  | .diverge => .diverge

/-- Scanning gives the token, eagerly and lazily. -/
def scans (f : SFlags → Cur → Out ScanError (MaybeToken × Cur)) (text : String) (token : Out ScanError Token) : Bool :=
  [false, true].all fun l => decide (scanned (f { lazy := l } ⟨b text, {}⟩) = token)

/-- `/repo/src/scanner/scalar/block.rs:817`: `literal_simple`. -/
example : scans (fun o => scanBlock o 0 false) "|\n  this is a simple block scalar"
    (.ok (.Scalar (b "this is a simple block scalar") .Literal)) = true := by decide +kernel

/-- `/repo/src/scanner/scalar/block.rs:833`: `literal_clip`. -/
example : scans (fun o => scanBlock o 0 false) "|\n  trailing lines...\n \n\n"
    (.ok (.Scalar (b "trailing lines...\n") .Literal)) = true := by decide +kernel

/-- `/repo/src/scanner/scalar/block.rs:849`: `literal_strip`. -/
example : scans (fun o => scanBlock o 0 false) "|-\n  trailing lines...\n \n\n"
    (.ok (.Scalar (b "trailing lines...") .Literal)) = true := by decide +kernel

/-- `/repo/src/scanner/scalar/block.rs:865`: `literal_keep`. -/
example : scans (fun o => scanBlock o 0 false) "|+\n  trailing lines...\n \n\n"
    (.ok (.Scalar (b "trailing lines...\n\n\n") .Literal)) = true := by decide +kernel

/-- `/repo/src/scanner/scalar/block.rs:881`: `literal_line_folding`. -/
example : scans (fun o => scanBlock o 0 false) "|\n  some folded\n  lines\n  here\n"
    (.ok (.Scalar (b "some folded\nlines\nhere\n") .Literal)) = true := by decide +kernel

/-- `/repo/src/scanner/scalar/block.rs:901`: `literal_preceding_breaks`. -/
example : scans (fun o => scanBlock o 0 false) "|-\n\n\n  some folded\n  lines\n  here\n"
    (.ok (.Scalar (b "\n\nsome folded\nlines\nhere") .Literal)) = true := by decide +kernel

/-- `/repo/src/scanner/scalar/block.rs:923`: `literal_trailing_breaks`. -/
example : scans (fun o => scanBlock o 0 false) "|+\n  some folded\n  lines\n  here\n\n\n"
    (.ok (.Scalar (b "some folded\nlines\nhere\n\n\n") .Literal)) = true := by decide +kernel

/-- `/repo/src/scanner/scalar/block.rs:945`: `literal_trailing_chars`. -/
example : scans (fun o => scanBlock o 0 false) "|+\n  some folded\n  lines\n  here\n\n\nsome.other.key: value"
    (.ok (.Scalar (b "some folded\nlines\nhere\n\n\n") .Literal)) = true := by decide +kernel

/-- `/repo/src/scanner/scalar/block.rs:967`: `literal_interior_breaks`. -/
example : scans (fun o => scanBlock o 0 false) "|-\n  this\n\n  has\n\n  breaks\n"
    (.ok (.Scalar (b "this\n\nhas\n\nbreaks") .Literal)) = true := by decide +kernel

/-- `/repo/src/scanner/scalar/block.rs:989`: `literal_comment`. -/
example : scans (fun o => scanBlock o 0 false) "| # a comment here.\n  simple block scalar"
    (.ok (.Scalar (b "simple block scalar") .Literal)) = true := by decide +kernel

/-- `/repo/src/scanner/scalar/block.rs:1007`: `folded_simple`. -/
example : scans (fun o => scanBlock o 0 true) ">\n  this is a simple block scalar"
    (.ok (.Scalar (b "this is a simple block scalar") .Folded)) = true := by decide +kernel

/-- `/repo/src/scanner/scalar/block.rs:1023`: `folded_clip`. -/
example : scans (fun o => scanBlock o 0 true) ">\n  trailing lines...\n \n\n"
    (.ok (.Scalar (b "trailing lines...\n") .Folded)) = true := by decide +kernel

/-- `/repo/src/scanner/scalar/block.rs:1039`: `folded_strip`. -/
example : scans (fun o => scanBlock o 0 true) ">-\n  trailing lines...\n \n\n"
    (.ok (.Scalar (b "trailing lines...") .Folded)) = true := by decide +kernel

/-- `/repo/src/scanner/scalar/block.rs:1055`: `folded_keep`. -/
example : scans (fun o => scanBlock o 0 true) ">+\n  trailing lines...\n \n\n"
    (.ok (.Scalar (b "trailing lines...\n\n\n") .Folded)) = true := by decide +kernel

/-- `/repo/src/scanner/scalar/block.rs:1071`: `folded_line_folding`. -/
example : scans (fun o => scanBlock o 0 true) ">\n  some folded\n  lines\n  here\n"
    (.ok (.Scalar (b "some folded lines here\n") .Folded)) = true := by decide +kernel

/-- `/repo/src/scanner/scalar/block.rs:1091`: `folded_preceding_breaks`. -/
example : scans (fun o => scanBlock o 0 true) ">-\n\n\n  some folded\n  lines\n  here\n"
    (.ok (.Scalar (b "\n\nsome folded lines here") .Folded)) = true := by decide +kernel

/-- `/repo/src/scanner/scalar/block.rs:1113`: `folded_trailing_breaks`. -/
example : scans (fun o => scanBlock o 0 true) ">+\n  some folded\n  lines\n  here\n\n\n"
    (.ok (.Scalar (b "some folded lines here\n\n\n") .Folded)) = true := by decide +kernel

/-- `/repo/src/scanner/scalar/block.rs:1135`: `folded_trailing_chars`. -/
example : scans (fun o => scanBlock o 0 true) ">+\n  some folded\n  lines\n  here\n\n\nsome.other.key: value"
    (.ok (.Scalar (b "some folded lines here\n\n\n") .Folded)) = true := by decide +kernel

/-- `/repo/src/scanner/scalar/block.rs:1157`: `folded_interior_breaks`. -/
example : scans (fun o => scanBlock o 0 true) ">-\n  this\n\n  has\n\n  breaks\n"
    (.ok (.Scalar (b "this\nhas\nbreaks") .Folded)) = true := by decide +kernel

/-- `/repo/src/scanner/scalar/block.rs:1179`: `folded_comment`. -/
example : scans (fun o => scanBlock o 0 true) "> # a comment here.\n  simple block scalar"
    (.ok (.Scalar (b "simple block scalar") .Folded)) = true := by decide +kernel

/-- `/repo/src/scanner/scalar/flow.rs:397`: `flow_single_empty`. -/
example : scans (fun o => scanFlow o true) "''"
    (.ok (.Scalar (b "") .SingleQuote)) = true := by decide +kernel

/-- `/repo/src/scanner/scalar/flow.rs:416`: `flow_single_simple`. -/
example : scans (fun o => scanFlow o true) "'hello world'"
    (.ok (.Scalar (b "hello world") .SingleQuote)) = true := by decide +kernel

/-- `/repo/src/scanner/scalar/flow.rs:435`: `flow_single_fold_lines`. -/
example : scans (fun o => scanFlow o true) "'first\n            second\n            third\nfourth'"
    (.ok (.Scalar (b "first second third fourth") .SingleQuote)) = true := by decide +kernel

/-- `/repo/src/scanner/scalar/flow.rs:457`: `flow_single_trim_whitespace`. -/
example : scans (fun o => scanFlow o true) "'first     \n            second'"
    (.ok (.Scalar (b "first second") .SingleQuote)) = true := by decide +kernel

/-- `/repo/src/scanner/scalar/flow.rs:477`: `flow_single_fold_newline`. -/
example : scans (fun o => scanFlow o true) "'first\n            second\n        third\n\n            fourth'"
    (.ok (.Scalar (b "first second third\nfourth") .SingleQuote)) = true := by decide +kernel

/-- `/repo/src/scanner/scalar/flow.rs:554`: `flow_double_empty`. -/
example : scans (fun o => scanFlow o false) "\"\""
    (.ok (.Scalar (b "") .DoubleQuote)) = true := by decide +kernel

/-- `/repo/src/scanner/scalar/flow.rs:574`: `flow_double_simple`. -/
example : scans (fun o => scanFlow o false) "\"hello world\""
    (.ok (.Scalar (b "hello world") .DoubleQuote)) = true := by decide +kernel

/-- `/repo/src/scanner/scalar/flow.rs:594`: `flow_double_unicode_escape`. -/
example : scans (fun o => scanFlow o false) "\"hello \\U000003B1 \\u03A9 \\u30C3\""
    (.ok (.Scalar (b "hello α Ω ッ") .DoubleQuote)) = true := by decide +kernel

/-- `/repo/src/scanner/scalar/flow.rs:620`: `flow_double_fold_lines`. -/
example : scans (fun o => scanFlow o false) "\"first\n            second\n            third\nfourth\""
    (.ok (.Scalar (b "first second third fourth") .DoubleQuote)) = true := by decide +kernel

/-- `/repo/src/scanner/scalar/flow.rs:642`: `flow_double_fold_newline`. -/
example : scans (fun o => scanFlow o false) "\"first\n            second\n        third\n\n            fourth\""
    (.ok (.Scalar (b "first second third\nfourth") .DoubleQuote)) = true := by decide +kernel

/-- `/repo/src/scanner/scalar/flow.rs:665`: `flow_double_trim_whitespace`. -/
example : scans (fun o => scanFlow o false) "\"first        \n            second\""
    (.ok (.Scalar (b "first second") .DoubleQuote)) = true := by decide +kernel

/-- `/repo/src/scanner/scalar/flow.rs:685`: `flow_double_escape_newline`. -/
example : scans (fun o => scanFlow o false) "\"fi\\\nrst  \\\n            second\n        third\n\n            fourth\""
    (.ok (.Scalar (b "first  second third\nfourth") .DoubleQuote)) = true := by decide +kernel

/-- `/repo/src/scanner/scalar/flow.rs:709`: `flow_double_escape_quote`. -/
example : scans (fun o => scanFlow o false) "\"a quote \\\" here\""
    (.ok (.Scalar (b "a quote \" here") .DoubleQuote)) = true := by decide +kernel

/-- `/repo/src/scanner/scalar/plain.rs:546`: `empty`. -/
example : scans (fun o => scanPlain o 1 true) "# a comment"
    (.ok (.Scalar (b "") .Plain)) = true := by decide +kernel

/-- `/repo/src/scanner/scalar/plain.rs:566`: `block_simple`. -/
example : scans (fun o => scanPlain o 1 true) "hello"
    (.ok (.Scalar (b "hello") .Plain)) = true := by decide +kernel

/-- `/repo/src/scanner/scalar/plain.rs:584`: `block_simple_key`. -/
example : scans (fun o => scanPlain o 1 true) "hello, world!: "
    (.ok (.Scalar (b "hello, world!") .Plain)) = true := by decide +kernel

/-- `/repo/src/scanner/scalar/plain.rs:602`: `block_multi_line`. -/
example : scans (fun o => scanPlain o 1 true) "hello\n this\n is\n a\n multi-line\n scalar\n"
    (.ok (.Scalar (b "hello this is a multi-line scalar") .Plain)) = true := by decide +kernel

/-- `/repo/src/scanner/scalar/plain.rs:626`: `block_multi_line_breaks`. -/
example : scans (fun o => scanPlain o 1 true) "this\n is\n\n\n a\n scalar\n\n with\n line#breaks\n\n"
    (.ok (.Scalar (b "this is\n\na scalar\nwith line#breaks") .Plain)) = true := by decide +kernel

/-- `/repo/src/scanner/scalar/plain.rs:654`: `block_trailing_whitespace`. -/
example : scans (fun o => scanPlain o 1 true) "hello       "
    (.ok (.Scalar (b "hello") .Plain)) = true := by decide +kernel

/-- `/repo/src/scanner/scalar/plain.rs:674`: `flow_simple`. -/
example : scans (fun o => scanPlain o 1 false) "hello"
    (.ok (.Scalar (b "hello") .Plain)) = true := by decide +kernel

/-- `/repo/src/scanner/scalar/plain.rs:714`: `flow_multi_line`. -/
example : scans (fun o => scanPlain o 1 false) "hello\nthis\nis\na\nmulti-line\nstring!"
    (.ok (.Scalar (b "hello this is a multi-line string!") .Plain)) = true := by decide +kernel

/-- `/repo/src/scanner/scalar/plain.rs:737`: `flow_multi_line_breaks`. -/
example : scans (fun o => scanPlain o 1 false) "hello\n        this\n\nbig\n\n    string\n\n        has\n\n    line\n\nbreaks\n        "
    (.ok (.Scalar (b "hello this\nbig\nstring\nhas\nline\nbreaks") .Plain)) = true := by decide +kernel

/-- `/repo/src/scanner/scalar/plain.rs:767`: `flow_trailing_whitespace_key`. -/
example : scans (fun o => scanPlain o 1 false) "hello   : "
    (.ok (.Scalar (b "hello") .Plain)) = true := by decide +kernel

/-- `/repo/src/scanner/scalar/plain.rs:785`: `flow_trailing_whitespace`. -/
example : scans (fun o => scanPlain o 1 false) "hello   "
    (.ok (.Scalar (b "hello") .Plain)) = true := by decide +kernel

/-- `/repo/src/scanner/scalar/plain.rs:803`: `flow_trailing_breaks`. -/
example : scans (fun o => scanPlain o 1 false) "hello\n\n        \n        \n        "
    (.ok (.Scalar (b "hello") .Plain)) = true := by decide +kernel

end Yary.Check
