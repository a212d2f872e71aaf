import Verif.Proof.FinalCalls
import Verif.Props.Chunks
import Verif.Props.Events

/-! # C69: a text with an error is not read to its end -/

namespace Yary

open Spec

variable {opts : SFlags} {text : List Char}

theorem final_of {e : ScanError} (he : e ≠ .MissingValue) (hx : e ≠ .Extend) : ¬ Final.Passing e := by
  rintro (rfl | rfl)
  · exact he rfl
  · exact hx rfl

/-- **C69**, tokens: when a call on a text has reported an error of the text (of any kind but a missing value), no call before or after it says that there
are no more tokens, and none hands out the end of the stream; every later call hands out another token, or reports an error of the text. -/
theorem C69_tokens_partial {a b : List ROp} {op : ROp} {e : ScanError}
    (h : (op.run (borrowDrive opts (utf8 text)) (readerAfter opts text a)).1 = .err (.Scanner e)) (he : e ≠ .MissingValue) :
    (∀ x ∈ history opts text (a ++ op :: b), ∀ t, x.2 = .ok t → ∃ k, t = some k ∧ k.wrap ≠ .Token .StreamEnd) ∧
    ∀ x ∈ (runOps (borrowDrive opts (utf8 text)) b (readerAfter opts text (a ++ [op]))).1,
      (∃ k, x.2 = .ok (some k) ∧ k.wrap ≠ .Token .StreamEnd) ∨ ∃ e', x.2 = .err (.Scanner e') := by
  have hmem : ∀ c, (op, .err (.Scanner e)) ∈ history opts text (a ++ op :: c) := by
    intro c
    unfold history
    rw [Client.ops_append]
    refine List.mem_append_right _ ?_
    unfold readerAfter at h
    simp only [runOps]
    rw [h]
    exact List.mem_cons_self
  have hx : e ≠ .Extend := by
    rintro rfl
    exact C41_whole opts text _ _ (hmem b) rfl
  constructor
  · rcases Final.ops_alive (opts := opts) (data := utf8 text) (a ++ op :: b) Final.fresh_alive with ⟨-, h1, -⟩ | ⟨-, h1⟩
    · exact h1
    · exact absurd (h1 _ (hmem b) e rfl) (final_of he hx)
  · rcases Final.ops_alive (opts := opts) (data := utf8 text) (a ++ [op]) Final.fresh_alive with ⟨-, -, h1⟩ | ⟨-, h1⟩
    · exact (Final.ops_dead b (h1 _ (hmem []) e rfl (final_of he hx))).2
    · exact absurd (h1 _ (hmem []) e rfl) (final_of he hx)

/-- A token after the error, and the error again: the scalar before it was waiting. -/
example : (ROp.run (borrowDrive {} (utf8 "- a\n'b".toList)) (readerAfter {} "- a\n'b".toList (List.replicate 3 .pop)) .pop).1 =
      .err (.Scanner .UnexpectedEOF) ∧ ScanError.UnexpectedEOF ≠ .MissingValue ∧
    ((runOps (borrowDrive {} (utf8 "- a\n'b".toList)) [.pop, .pop] (readerAfter {} "- a\n'b".toList (List.replicate 4 .pop))).1.map (·.2)) =
      [.ok (some ⟨.Token (.Scalar (bytes! "a") .Plain), 3⟩), .err (.Scanner .UnexpectedEOF)] := by
  decide +kernel

/-- So does a block scalar with a tab where it must not be, though what is before it on its line is counted once more whenever it is read. -/
example : (ROp.run (borrowDrive {} (utf8 "- a\n-    |\n b\n\tc".toList)) (readerAfter {} "- a\n-    |\n b\n\tc".toList (List.replicate 5 .pop)) .pop).1 =
      .err (.Scanner .InvalidTab) ∧ ScanError.InvalidTab ≠ .MissingValue ∧
    ((runOps (borrowDrive {} (utf8 "- a\n-    |\n b\n\tc".toList)) [.pop, .peek, .pop] (readerAfter {} "- a\n-    |\n b\n\tc".toList (List.replicate 6 .pop))).1.map (·.2)) =
      [.err (.Scanner .InvalidTab), .err (.Scanner .InvalidTab), .err (.Scanner .InvalidTab)] := by
  decide +kernel

/-- **C69**, events: when a call on a stream of events of a text has returned an error of the text (of any kind but a missing value), no later call returns
`None`, or the event that ends the stream. -/
theorem C69_events_partial {a b : List (Out ParseError (Option Event))} {e : ScanError} {s : PS Scanner}
    (h : Calls (borrowDrive opts (utf8 text)) (start {}) (a ++ .err (.Scanner e) :: b) s) (he : e ≠ .MissingValue) :
    ∀ o ∈ b, o ≠ .ok none ∧ ∀ ev, o = .ok (some ev) → ev.data ≠ .StreamEnd :=
  Final.calls_live h (final_of he fun hx => Final.calls_calm h _ (by rw [← hx]; simp) rfl) (.inr (.inl Final.fresh_alive))

/-- A number of calls. -/
def someCalls {σ : Type} (drive : Drive σ) (fuel : Nat) : Nat → PS σ → List (Out ParseError (Option Event)) × PS σ
  | 0, s => ([], s)
  | n + 1, s =>
    let r := Parser.nextEvent drive fuel s
    let rest := someCalls drive fuel n r.2
    (r.1 :: rest.1, rest.2)

theorem someCalls_calls {σ : Type} {drive : Drive σ} {fuel : Nat} : ∀ (n : Nat) {s : PS σ}, (∀ o ∈ (someCalls drive fuel n s).1, o ≠ .diverge) →
    Calls drive s (someCalls drive fuel n s).1 (someCalls drive fuel n s).2 := by
  intro n
  induction n with
  | zero => exact fun _ => .nil _
  | succ n ih => exact fun h => .cons fuel rfl (h _ List.mem_cons_self) (ih fun o ho => h o (List.mem_cons_of_mem _ ho))

/-- As events: an error, another event, and the error again. -/
example : ∃ a b s, Calls (borrowDrive {} (utf8 "- - a\n'b".toList)) (start {}) (a ++ .err (.Scanner .UnexpectedEOF) :: b) s ∧ a.length = 4 ∧
    b = [.ok (some ⟨6, 6, .SequenceEnd⟩), .err (.Scanner .UnexpectedEOF), .err (.Scanner .UnexpectedEOF)] := by
  have h := someCalls_calls (drive := borrowDrive {} (utf8 "- - a\n'b".toList)) (fuel := 40) 8 (s := start {}) (by decide +kernel)
  refine ⟨(someCalls (borrowDrive {} (utf8 "- - a\n'b".toList)) 40 4 (start {})).1, _,
    (someCalls (borrowDrive {} (utf8 "- - a\n'b".toList)) 40 8 (start {})).2, ?_, by decide +kernel, rfl⟩
  have e : (someCalls (borrowDrive {} (utf8 "- - a\n'b".toList)) 40 8 (start {})).1 =
      (someCalls (borrowDrive {} (utf8 "- - a\n'b".toList)) 40 4 (start {})).1 ++ .err (.Scanner .UnexpectedEOF) ::
      [.ok (some ⟨6, 6, .SequenceEnd⟩), .err (.Scanner .UnexpectedEOF), .err (.Scanner .UnexpectedEOF)] := by
    decide +kernel
  rw [← e]
  exact h

/-- **C69** in general is false: a stream on a text with an error does end with `None`, and its last event is that which ends the stream. -/
theorem C69_false : ∃ text : List Char,
    let os := (nexts (Events.textDrive (fromUtf8 text) 0) 60 9 Events.ofText).1
    (∃ e ∈ os, e = .err ⟨.Code .MissingValue, 0, 0, 0⟩) ∧ os[7]? = some (.ok (some ⟨3, 3, .StreamEnd⟩)) ∧ os[8]? = some (.ok none) :=
  ⟨":\na".toList, by decide +kernel⟩

end Yary
