import Verif.Spec.Tokens
import Verif.Spec.Position

/-! # The scanner, token by token

The states a scanner gets into on a text, and how long it remembers a possible key. -/

namespace Yary.Spec

/-- The states of a scanner of the text `base`: it scans tokens, it goes on after an error, if `errs`,
with the text it had or, if it asked for more text, with what it did not read, its tokens are handed
over, and the offset into the text is its own business. -/
inductive Reach (errs : Bool) (opts : SFlags) (base : Str) : SS → Prop where
  | start : Reach errs opts base ⟨{}, base, []⟩
  | step {s s' : SS} (h : Reach errs opts base s) (hd : s.sc.state ≠ .Done)
      (hs : Scan.scanNextToken opts s = (.ok (), s')) : Reach errs opts base s'
  | fail {s s' : SS} {e : ScanError} (he : errs = true) (h : Reach errs opts base s) (hd : s.sc.state ≠ .Done)
      (hs : Scan.scanNextToken opts s = (.err e, s')) : Reach errs opts base ⟨s'.sc, s.buf, s'.out⟩
  | more {s s' : SS} (he : errs = true) (h : Reach errs opts base s) (hd : s.sc.state ≠ .Done)
      (hs : Scan.scanNextToken opts s = (.err .Extend, s')) : Reach errs opts base s'
  | hand {s : SS} (h : Reach errs opts base s) : Reach errs opts base ⟨s.sc, s.buf, []⟩
  | offset {s : SS} (n : Nat) (h : Reach errs opts base s) :
      Reach errs opts base ⟨{ s.sc with offset := n }, s.buf, s.out⟩

/-- The tokens a step pushed. -/
def pushedBy (s s' : SS) : List TokenEntry := s'.out.drop s.out.length

/-- A key has been read that must be followed by its value. -/
def KeyDue (s : SS) : Prop := ∃ k, s.sc.key = some k ∧ k.possible = .Required

/-- From `s` to `s'`, first some block collections end and then `tok` is pushed, at the position reached. -/
def Pushes (s s' : SS) (tok : MaybeToken) : Prop :=
  ∃ l, pushedBy s s' = l ++ [⟨tok, s'.sc.stats.read⟩] ∧ ∀ e ∈ l, e.wrap = .Token .BlockEnd

/-- `Comes s t`: the scanner, in the state `s`, is between two tokens, and next, after white space and
comments in ASCII, comes `t`. -/
def Comes (s : SS) (t : Str) : Prop :=
  s.sc.state = .Stream ∧ (∃ n, Skips true s.buf n t) ∧ ∃ p, s.buf = p ++ t ∧ ∀ b ∈ p, b < 128

/-- The token of a node: a tag, an anchor, an alias or a scalar. -/
def isNode (m : Marker) : Bool := m == .Tag || m == .Anchor || m == .Alias || m == .Scalar

/-- `Held opts base k l s`: in the state `s` the possible key `k` is remembered, and `l` are the
tokens pushed since, and including, the step that found it. -/
inductive Held (opts : SFlags) (base : Str) (k : KeySave) : List TokenEntry → SS → Prop where
  | found {s s' : SS} (h : Reach true opts base s) (hd : s.sc.state ≠ .Done) (hn : s.sc.key ≠ some k)
      (hs : Scan.scanNextToken opts s = (.ok (), s')) (hk : s'.sc.key = some k) :
      Held opts base k (pushedBy s s') s'
  | kept {s s' : SS} {l : List TokenEntry} (h : Held opts base k l s) (hd : s.sc.state ≠ .Done)
      (hs : Scan.scanNextToken opts s = (.ok (), s')) (hk : s'.sc.key = some k) :
      Held opts base k (l ++ pushedBy s s') s'
  | offset {s : SS} {l : List TokenEntry} (n : Nat) (h : Held opts base k l s) :
      Held opts base k l ⟨{ s.sc with offset := n }, s.buf, s.out⟩

/-- The possible key `k` was found where the text `b` begins: after the white space before a token, or
right after the bracket of a flow collection. -/
def FoundAt (opts : SFlags) (base : Str) (k : KeySave) (b : Str) : Prop :=
  ∃ s s' n r, Reach false opts base s ∧ Scan.scanNextToken opts s = (.ok (), s') ∧ s'.sc.key = some k ∧
    Skips true s.buf n r ∧ (b = r ∨ ∃ x, (x = b! '[' ∨ x = b! '{') ∧ r = x :: b)

end Yary.Spec
