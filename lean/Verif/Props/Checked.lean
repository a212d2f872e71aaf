import Verif.Proof.Scan.Release

/-! # Overflow checks

C60: whether subtractions are checked makes no difference. -/

namespace Yary

/-- **C60** A scanner does the same with and without overflow checks, whatever a subtraction `a - b` with `a < b` yields without
them: for every text, state of the scanner and kind of scanning, `scan_tokens` returns the same result, pushes the same
tokens and leaves the same state. -/
theorem C60_scan (u : Nat → Nat → Nat) (opts : SFlags) (text : Str) (sc : Scanner) :
    Release.scanTokens u opts text sc = scanTokens opts text sc := Release.scanLoop_eq

/-- **C60** So does evaluating a deferred scalar. -/
theorem C60_deferred (u : Nat → Nat → Nat) (l : Lazy) : Release.intoToken u l = l.intoToken := by
  cases l with
  | flow => simp only [Release.intoToken, Lazy.intoToken, Release.scanFlowEager_eq]
  | plain => simp only [Release.intoToken, Lazy.intoToken, Release.scanPlainEager_eq]
  | block => simp only [Release.intoToken, Lazy.intoToken, Release.scanBlockEager_eq]

/-- The subtraction of a release build. -/
def wrapping (a b : Nat) : Nat := a + 2 ^ 64 - b

/-- The functions compared are different ones: where a subtraction does underflow, one panics, and one does not. -/
example : truncEnd (bytes! "a") 2 = .panic ∧ Release.truncEnd wrapping (bytes! "a") 2 = bytes! "a" ∧
    Release.less wrapping 1 2 = 2 ^ 64 - 1 ∧ minus 1 2 = .panic := by decide +kernel

/-- A text with subtractions of each kind: a plain scalar and a quoted one over several lines, and a block scalar. -/
example : ((scanTokens {} (bytes! "a b \n \n c") { state := .Stream }).2.2.map (·.wrap)) =
      [.Token (.Scalar (bytes! "a b\nc") .Plain)] ∧
    ((Release.scanTokens wrapping {} (bytes! "a b \n \n c") { state := .Stream }).2.2.map (·.wrap)) =
      [.Token (.Scalar (bytes! "a b\nc") .Plain)] ∧
    ((Release.scanTokens wrapping {} (bytes! "|\n a\n b\n") { state := .Stream }).2.2.map (·.wrap)) =
      [.Token (.Scalar (bytes! "a\nb\n") .Literal)] := by decide +kernel

end Yary
