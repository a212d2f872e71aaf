import Verif.Spec.Steps

/-! # Where block collections and keys may begin -/

namespace Yary.Spec

/-- `After opts base l s`: the scanner, in the state `s`, has just scanned the tokens `l`, in one step. -/
inductive After (opts : SFlags) (base : Str) : List TokenEntry → SS → Prop where
  | step {s s' : SS} (h : Reach true opts base s) (hd : s.sc.state ≠ .Done)
      (hs : Scan.scanNextToken opts s = (.ok (), s')) : After opts base (pushedBy s s') s'
  | hand {l : List TokenEntry} {s : SS} (h : After opts base l s) : After opts base l ⟨s.sc, s.buf, []⟩
  | offset {l : List TokenEntry} {s : SS} (n : Nat) (h : After opts base l s) :
      After opts base l ⟨{ s.sc with offset := n }, s.buf, s.out⟩

/-- A literal or folded scalar. -/
def isBlockScalar : MaybeToken → Bool
  | .Token (.Scalar _ style) => style == .Literal || style == .Folded
  | .Deferred (.block ..) => true
  | _ => false

/-- After these tokens a block collection or a key may begin, on the same line: the stream has just started, an entry or an explicit
key has just begun, or the value of one (a value whose key was read before is not), or there was a comma or a block scalar. -/
def Opens (l : List TokenEntry) : Prop := ∃ e, l.getLast? = some e ∧
  (e.wrap.marker = .StreamStart ∨ e.wrap.marker = .BlockEntry ∨ e.wrap.marker = .Key ∨ e.wrap.marker = .FlowEntry ∨
    isBlockScalar e.wrap = true ∨ e.wrap.marker = .Value ∧ ∀ x ∈ l, x.wrap.marker ≠ .Key)

/-- After the tokens `l` and `n` line breaks a block collection or a key may begin. -/
def Place (l : List TokenEntry) (n : Nat) : Prop := n ≠ 0 ∨ Opens l

end Yary.Spec
