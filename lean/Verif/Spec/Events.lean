import Verif.Model.Events
import Verif.Spec.Calls
import Verif.Spec.Lazy
import Verif.Spec.Chunks

/-!
# The results of an event stream

What consecutive calls of `next` on an event stream return, compared between two streams.
-/

namespace Yary.Spec

/-- An error of the source: of its tokens, its encoding, or its reads; not of the order of the tokens. -/
def fromSource : ParseError → Bool
  | .Scanner _ | .UTF8 _ | .IO _ => true
  | _ => false

/-- The results up to the first failure of the source. After any other error the stream goes on. -/
def upToSource : List (Out ParseError (Option Event)) → List (Out ParseError (Option Event))
  | [] => []
  | .ok e :: os => .ok e :: upToSource os
  | .err e :: os => if fromSource e then [.err e] else .err e :: upToSource os
  | .panic :: _ => [.panic]
  | .diverge :: _ => [.diverge]

/-- The scalar there is, or what evaluating it gives. -/
def scalarOf : ScalarLike → Out ScanError Token
  | .Eager s => .ok (.Scalar s.data s.style)
  | .Lazy l => l.intoToken

/-- Two scalars which evaluate to the same. -/
def SameScalar (c c' : ScalarLike) : Prop := ∃ t, scalarOf c = .ok t ∧ scalarOf c' = .ok t

/-- The same, or block scalars of which the second lacks a final line break. -/
def CloseScalar (c c' : ScalarLike) : Prop := SameScalar c c' ∨ ∃ v b style,
  (style = .Literal ∨ style = .Folded) ∧ (b = 0x0A ∨ b = 0x0D) ∧
  scalarOf c = .ok (.Scalar (v ++ [b]) style) ∧ scalarOf c' = .ok (.Scalar v style)

/-- Block scalars of the same text, of which the first, and not the second, may have been told that the text goes on: evaluating the first
then asks for more text, or gives what evaluating the second gives. -/
def LaterScalar (c c' : ScalarLike) : Prop := ∃ o s st i f,
  c = .Lazy (.block o s st i f) ∧ c' = .Lazy (.block { o with extendable := false } s st i f) ∧
  (scalarOf c = .err .Extend ∨ scalarOf c' = scalarOf c)

/-- The same events, up to the content of scalars, which is related. -/
inductive SameEvent (C : ScalarLike → ScalarLike → Prop) : Event → Event → Prop where
  | same (e : Event) : SameEvent C e e
  | scalar {start stop : Nat} {n : Node} {c c' : ScalarLike} (h : C c c') :
      SameEvent C ⟨start, stop, .Scalar n c⟩ ⟨start, stop, .Scalar n c'⟩

/-- Until the source of the first stream fails, the second stream returns related events, the same errors, and ends when the first
does. -/
inductive Follows (C : ScalarLike → ScalarLike → Prop) : List (Out ParseError (Option Event)) →
    List (Out ParseError (Option Event)) → Prop where
  | nil : Follows C [] []
  | event {e e' : Event} {os os'} (h : SameEvent C e e') (rest : Follows C os os') : Follows C (.ok (some e) :: os) (.ok (some e') :: os')
  | none {os os'} (rest : Follows C os os') : Follows C (.ok none :: os) (.ok none :: os')
  | err {e : ParseError} {os os'} (h : fromSource e = false) (rest : Follows C os os') : Follows C (.err e :: os) (.err e :: os')
  | fails {o : Out ParseError (Option Event)} {os os'} (ho : ∀ e, o ≠ .ok e) (hf : ∀ e, o = .err e → fromSource e = true) : Follows C (o :: os) os'

/-- A failure of the source. -/
def SourceFails (o : Out ParseError (Option Event)) : Prop := (∀ e, o ≠ .ok e) ∧ ∀ e, o = .err e → fromSource e = true

/-- Two streams return the same until the source fails, in the same way on both sides; or until the first one reports an error in `E`. -/
inductive AgreeEvents (E : ReaderError → Prop) : List (Out ParseError (Option Event)) → List (Out ParseError (Option Event)) → Prop where
  | nil : AgreeEvents E [] []
  | goes {o : Out ParseError (Option Event)} {os os'} (ho : ¬ SourceFails o) (rest : AgreeEvents E os os') : AgreeEvents E (o :: os) (o :: os')
  | stops {o : Out ParseError (Option Event)} {os os'} (ho : SourceFails o) : AgreeEvents E (o :: os) (o :: os')
  | fails {e : ReaderError} {os os'} (he : E e) : AgreeEvents E (.err (.ofReader e) :: os) os'

/-- What the next `n` calls of `next` return, and the stream after them. -/
def nexts {σ : Type} (drive : Drive σ) (fuel : Nat) : Nat → Events σ → List (Out PublicError (Option Event)) × Events σ
  | 0, s => ([], s)
  | n + 1, s =>
    let r := Events.next drive fuel s
    let rest := nexts drive fuel n r.2
    (r.1 :: rest.1, rest.2)

/-- The values of the scalars among the results. -/
def scalarsRead (os : List (Out PublicError (Option Event))) : List Str :=
  os.filterMap fun o => match o with
    | .ok (some ⟨_, _, .Scalar _ (.Eager s)⟩) => some s.data
    | _ => none

/-- The last result is `None`, and all before are events. -/
def RunsOut (os : List (Out PublicError (Option Event))) : Prop :=
  ∃ es : List Event, os = es.map (fun e => .ok (some e)) ++ [.ok none]

end Yary.Spec
