import Verif.Proof.AgainRun
import Verif.Props.Final

/-! # C72: when an entry of a collection is not followed by another or by the end of the collection, the stream stays at this error -/

namespace Yary

open Spec

variable {σ : Type} {drive : Drive σ} {src : σ}

/-- **C72**, flow style: when a call has reported that neither another entry nor the end of a collection in flow style comes next, every later call reports
the same. For all sources of tokens. -/
theorem C72_flow {a b : List (Out ParseError (Option Event))} {e : ParseError} {s : PS σ} (h : Calls drive (start src) (a ++ .err e :: b) s)
    (he : e = .MissingFlowSequenceEntryOrEnd ∨ e = .MissingFlowMappingEntryOrEnd) : ∀ o ∈ b, o = .err e :=
  Again.flow_again h (by rcases he with rfl | rfl <;> constructor)

/-- **C72**, block style: when a call has reported that neither another entry nor the end of a collection in block style comes next, and the call before it
returned an event that does not start a collection, every later call reports the same. For all sources of tokens. -/
theorem C72_block_partial {a b : List (Out ParseError (Option Event))} {ev : Event} {e : ParseError} {s : PS σ}
    (h : Calls drive (start src) (a ++ .ok (some ev) :: .err e :: b) s) (he : e = .MissingBlockEntry ∨ e = .MissingKey)
    (hev : ∀ n, ev.data ≠ .SequenceStart n ∧ ev.data ≠ .MappingStart n) : ∀ o ∈ b, o = .err e := by
  refine Again.later_again h Again.new_sh (by rcases he with rfl | rfl <;> constructor) ?_
  cases hd : ev.data with
  | SequenceStart n => exact absurd hd (hev n).1
  | MappingStart n => exact absurd hd (hev n).2
  | _ => rfl

/-- In flow style: nothing after the inner sequence. -/
example : ∃ a s, Calls (borrowDrive {} (utf8 "[[b] c]".toList)) (start {})
    (a ++ .err .MissingFlowSequenceEntryOrEnd :: List.replicate 3 (.err .MissingFlowSequenceEntryOrEnd)) s ∧ a.length = 6 := by
  have h := someCalls_calls (drive := borrowDrive {} (utf8 "[[b] c]".toList)) (fuel := 40) 10 (s := start {}) (by decide +kernel)
  refine ⟨(someCalls (borrowDrive {} (utf8 "[[b] c]".toList)) 40 6 (start {})).1, (someCalls (borrowDrive {} (utf8 "[[b] c]".toList)) 40 10 (start {})).2, ?_, by decide +kernel⟩
  have e : (someCalls (borrowDrive {} (utf8 "[[b] c]".toList)) 40 10 (start {})).1 =
      (someCalls (borrowDrive {} (utf8 "[[b] c]".toList)) 40 6 (start {})).1 ++ .err .MissingFlowSequenceEntryOrEnd ::
      List.replicate 3 (.err .MissingFlowSequenceEntryOrEnd) := by
    decide +kernel
  rw [← e]
  exact h

/-- In block style: an entry of a sequence where a key of the mapping must be. -/
example : ∃ a ev s, Calls (borrowDrive {} (utf8 "a: b\n- c".toList)) (start {})
    (a ++ .ok (some ev) :: .err .MissingKey :: List.replicate 3 (.err .MissingKey)) s ∧ a.length = 4 ∧
    ev.data = .Scalar ⟨none, none, .Value⟩ (.Eager ⟨bytes! "b", .Plain⟩) := by
  have h := someCalls_calls (drive := borrowDrive {} (utf8 "a: b\n- c".toList)) (fuel := 40) 9 (s := start {}) (by decide +kernel)
  refine ⟨(someCalls (borrowDrive {} (utf8 "a: b\n- c".toList)) 40 4 (start {})).1, ⟨4, 4, .Scalar ⟨none, none, .Value⟩ (.Eager ⟨bytes! "b", .Plain⟩)⟩,
    (someCalls (borrowDrive {} (utf8 "a: b\n- c".toList)) 40 9 (start {})).2, ?_,
    by decide +kernel, rfl⟩
  have e : (someCalls (borrowDrive {} (utf8 "a: b\n- c".toList)) 40 9 (start {})).1 =
      (someCalls (borrowDrive {} (utf8 "a: b\n- c".toList)) 40 4 (start {})).1 ++
      .ok (some ⟨4, 4, .Scalar ⟨none, none, .Value⟩ (.Eager ⟨bytes! "b", .Plain⟩)⟩) :: .err .MissingKey :: List.replicate 3 (.err .MissingKey) := by
    decide +kernel
  rw [← e]
  exact h

/-- **C72** in general is false of block style: after the start of a mapping the error is reported twice, for each of the two tokens of `: a`, which are
lost. Then the mapping, the document and the stream end. -/
theorem C72_false : ∃ text : List Char,
    let os := (nexts (Events.textDrive (fromUtf8 text) 0) 60 9 Events.ofText).1
    (∃ e ∈ os, e = .err ⟨.Code .MissingKey, 0, 0, 0⟩) ∧ os[7]? = some (.ok (some ⟨3, 3, .StreamEnd⟩)) ∧ os[8]? = some (.ok none) :=
  ⟨": a".toList, by decide +kernel⟩

/-- Nor do other errors of events stay: where a node is missing in a sequence, its end is the next event. -/
theorem C72_false_node : ∃ text : List Char,
    let os := (nexts (Events.textDrive (fromUtf8 text) 0) 60 5 Events.ofText).1
    os[3]? = some (.err ⟨.Code .MissingNode, 0, 0, 0⟩) ∧ os[4]? = some (.ok (some ⟨3, 3, .SequenceEnd⟩)) :=
  ⟨"[,]".toList, by decide +kernel⟩

end Yary
