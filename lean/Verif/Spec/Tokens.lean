import Verif.Model.Scan.Scanner
import Verif.Spec.Reader
import Verif.Spec.Utf8

/-! # The tokens of a text

A consumer of tokens peeks at and pops the tokens of a text through a reader. -/

namespace Yary.Spec

/-- A reader of the tokens of a text, before the first call. -/
def freshReader : PeekReader Scanner := PeekReader.new {}

/-- What the calls of a history report, on a text. -/
def history (opts : SFlags) (text : List Char) (ops : List ROp) :
    List (ROp × Out ReaderError (Option TokenEntry)) :=
  (runOps (borrowDrive opts (utf8 text)) ops freshReader).1

/-- The reader after a history of calls, on a text. -/
def readerAfter (opts : SFlags) (text : List Char) (ops : List ROp) : PeekReader Scanner :=
  (runOps (borrowDrive opts (utf8 text)) ops freshReader).2

/-- No call of the history panicked. -/
def NoPanic (h : List (ROp × Out ReaderError (Option TokenEntry))) : Prop := ∀ x ∈ h, x.2 ≠ .panic

/-- Every call of the history succeeded. -/
def AllOk (h : List (ROp × Out ReaderError (Option TokenEntry))) : Prop := ∀ x ∈ h, ∃ r, x.2 = .ok r

/-- The kinds of the tokens a history handed out. -/
def kindsHanded (h : List (ROp × Out ReaderError (Option TokenEntry))) : List Marker :=
  (handed h).map fun e => e.wrap.marker

/-- The start of a flow collection. -/
def isFlowStart (m : Marker) : Bool := m == .FlowSequenceStart || m == .FlowMappingStart
/-- The end of a flow collection. -/
def isFlowEnd (m : Marker) : Bool := m == .FlowSequenceEnd || m == .FlowMappingEnd
/-- The start of a block collection. -/
def isBlockStart (m : Marker) : Bool := m == .BlockSequenceStart || m == .BlockMappingStart
/-- The end of a block collection. -/
def isBlockEnd (m : Marker) : Bool := m == .BlockEnd

/-- The tokens between documents: they end all block collections. -/
def isBetween (m : Marker) : Bool :=
  m == .DocumentStart || m == .DocumentEnd || m == .StreamEnd || m == .VersionDirective ||
    m == .TagDirective

end Yary.Spec
