import Verif.Model.Parser

/-!
# The debug build of the parser

`/repo/src/event/parser/mod.rs` states five `debug_assert!`s (lines 406, 478, 592, 774, 805). They are
compiled out of a release build, which is what `Verif.Model.Parser` models. Here they are checked.
-/

namespace Yary.Debug

open PM Parser

variable {σ : Type}

/-- `debug_assert!(matches!(token, ..))` on the next token. Simplification: at lines 404-406, 590-592
and 803-805 the token is taken first and then looked at; here it is looked at before it is taken, with
the same result, since what `pop` returns is what `peek` shows (C08), and both fail in the same way. -/
def expect (drive : Drive σ) (ms : List Marker) : PM σ Unit := do
  let e ← peek drive
  if ms.contains e.marker then pure () else SO.panic

/-- The assertion of the function that the current state leads to:
`/repo/src/event/parser/mod.rs:402-407` (`block_sequence_entry`), `:474-481` (`block_mapping_key`),
`:588-593` (`flow_sequence_entry`), `:772-774` (`flow_sequence_entry_mapping_end`),
`:801-806` (`flow_mapping_key`). -/
def assertion (drive : Drive σ) : PM σ Unit := do
  let s ← SO.get
  match s.parser.state.top with
  | .BlockSequenceEntry true => expect drive [.BlockSequenceStart]
  | .BlockMappingKey true => expect drive [.BlockMappingStart]
  | .FlowSequenceEntry true => expect drive [.FlowSequenceStart]
  | .FlowMappingKey true => expect drive [.FlowMappingStart]
  | .FlowSequenceMappingEnd => expect drive [.FlowEntry, .FlowSequenceEnd]
  | _ => pure ()

/-- `/repo/src/event/parser/mod.rs:147-175`: `state_transition`, with the assertions. -/
def stateTransition (drive : Drive σ) (fuel : Nat) : PM σ (Option Event) := do
  assertion drive
  Parser.stateTransition drive fuel

/-- `/repo/src/event/parser/mod.rs:132-143`: the loop of `get_next_event`, with the assertions. -/
def nextEventLoop (drive : Drive σ) (fuel : Nat) : Nat → PM σ (Option Event)
  | 0 => SO.diverge
  | n + 1 => do
    let s ← SO.get
    if s.parser.done then pure none
    else do
      match ← stateTransition drive fuel with
      | some ev => pure (some ev)
      | none => nextEventLoop drive fuel n

/-- `/repo/src/event/parser/mod.rs:105-110,129-143`: `next_event`, with the assertions. -/
def nextEvent (drive : Drive σ) (fuel : Nat) : PM σ (Option Event) := nextEventLoop drive fuel fuel

end Yary.Debug
