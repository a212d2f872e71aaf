import Verif.Proof.Shown
import Verif.Proof.Asked
import Verif.Props.Asked
import Verif.Props.Final

/-! # C70: events are made of what their calls took, whatever went wrong before -/

namespace Yary

open Spec

variable {σ : Type} {drive : Drive σ}

/-- One chunk of tokens per call. If the call returned an event, some of the tokens, in their order, make it up. -/
inductive OfOwnTokens : List (List TokenEntry) → List (Out ParseError (Option Event)) → Prop where
  | nil : OfOwnTokens [] []
  | cons {ts : List TokenEntry} {chunks : List (List TokenEntry)} {o : Out ParseError (Option Event)} {os : List (Out ParseError (Option Event))}
      (h : ∀ e, o = .ok (some e) → ∃ us, us.Sublist ts ∧ Explains us e.data) (t : OfOwnTokens chunks os) : OfOwnTokens (ts :: chunks) (o :: os)

theorem call_accounted {fuel : Nat} {s s' : PS σ} {o : Out ParseError (Option Event)} (h : Parser.nextEvent drive fuel s = (o, s')) :
    ∃ ops, (runOps drive ops s.tokens).2 = s'.tokens ∧
      ∀ e, o = .ok (some e) → (∃ us, us.Sublist (handed (runOps drive ops s.tokens).1) ∧ Explains us e.data) ∧
        Marked (handed (runOps drive ops s.tokens).1 ++ s'.tokens.peeked.toList) e := by
  have hc := Client.nextEvent (drive := drive) fuel s
  rw [h] at hc
  obtain ⟨ops, h1, -, -⟩ := hc
  rcases o with (_ | e) | _ | _ | _
  · exact ⟨ops, h1.symm, nofun⟩
  · obtain ⟨ts, h2, h3⟩ := Shown.call h
    obtain ⟨ops, -, h4, h5⟩ := Count.pops_ops h2
    refine ⟨ops, h5, fun e' he => ?_⟩
    cases he
    rw [h4]
    exact h3 e rfl
  · exact ⟨ops, h1.symm, nofun⟩
  · exact ⟨ops, h1.symm, nofun⟩
  · exact ⟨ops, h1.symm, nofun⟩

theorem calls_accounted {s s' : PS σ} {os : List (Out ParseError (Option Event))} (h : Calls drive s os s') :
    ∃ ops chunks, (runOps drive ops s.tokens).2 = s'.tokens ∧ handed (runOps drive ops s.tokens).1 = chunks.flatten ∧ OfOwnTokens chunks os := by
  induction h with
  | nil => exact ⟨[], [], rfl, rfl, .nil⟩
  | @cons s s1 s2 o os fuel h _ _ ih =>
    obtain ⟨a, h1, h2⟩ := call_accounted h
    obtain ⟨b, chunks, h3, h4, h5⟩ := ih
    refine ⟨a ++ b, handed (runOps drive a s.tokens).1 :: chunks, ?_, ?_, .cons (fun e he => (h2 e he).1) h5⟩
    · rw [Client.ops_append, h1, h3]
    · rw [Client.ops_append, Client.handed_append, h1, h4, List.flatten_cons]

/-- **C70.** Let any calls be made on a stream of events, over any source of tokens, some of which may have returned errors. The tokens that were
taken from the source are one chunk per call, in order, and where a call returned an event, it is made up of tokens of its own chunk: its names,
tags, scalar and directives are exactly those of some of the tokens, in their order. So nothing that was read before an error shows up in a later
event, no token's content shows up in two events, and none before that of a token that was read earlier. -/
theorem C70_own_tokens {src : σ} {os : List (Out ParseError (Option Event))} {s : PS σ} (h : Calls drive (start src) os s) :
    ∃ ops chunks, (runOps drive ops (PeekReader.new src)).2 = s.tokens ∧ handed (runOps drive ops (PeekReader.new src)).1 = chunks.flatten ∧
      OfOwnTokens chunks os := calls_accounted h

/-- The events returned, as their anchors and scalars, and `none` where an error was. -/
def shownOf (os : List (Out ParseError (Option Event))) : List (Option (Option Str × Str)) :=
  os.filterMap fun o => match o with
    | .ok (some ⟨_, _, .Scalar n (.Eager v)⟩) => some (some (n.anchor, v.data))
    | .err _ => some none
    | _ => none

/-- Calls after an error: the anchor and the scalar that the failed call took are not seen again. -/
example : ∃ os s, Calls (borrowDrive {} (utf8 "- !x!y &k a\n- b\n- &l c".toList)) (start {}) os s ∧ os.length = 10 ∧
    shownOf os = [none, some (none, bytes! "b"), some (some (bytes! "l"), bytes! "c")] :=
  ⟨_, _, someCalls_calls (drive := borrowDrive {} (utf8 "- !x!y &k a\n- b\n- &l c".toList)) (fuel := 40) 10 (s := start {}) (by decide +kernel),
    by decide +kernel, by decide +kernel⟩

/-- **C70**, positions: in whatever state a call is made, the positions of the event it returns are those of tokens it took, or looked at. -/
theorem C70_positions {fuel : Nat} {s s' : PS σ} {e : Event} (h : Parser.nextEvent drive fuel s = (.ok (some e), s')) :
    ∃ ops, (runOps drive ops s.tokens).2 = s'.tokens ∧
      ∀ n ∈ [e.start, e.stop], ∃ t ∈ handed (runOps drive ops s.tokens).1 ++ s'.tokens.peeked.toList, n = t.readAt := by
  obtain ⟨ops, h1, h2⟩ := call_accounted h
  obtain ⟨-, h3, h4, -⟩ := h2 e rfl
  refine ⟨ops, h1, fun n hn => ?_⟩
  simp only [List.mem_cons, List.not_mem_nil, or_false] at hn
  rcases hn with rfl | rfl
  · exact h3
  · exact h4

/-- The scalar is the content of a token. -/
theorem scalar_of_explains {ts : List TokenEntry} {n : Node} {c : ScalarLike} (h : Explains ts (.Scalar n c)) : c = .empty ∨ ∃ t ∈ ts, pieces t = [.scalar c] := by
  obtain ⟨ps, tag, -, -, ⟨hc, -⟩ | ⟨-, rfl⟩⟩ := h
  · refine .inr ?_
    have : Piece.scalar c ∈ ts.flatMap pieces := by rw [hc]; simp
    obtain ⟨t, ht, h1⟩ := List.mem_flatMap.1 this
    refine ⟨t, ht, ?_⟩
    unfold pieces at h1 ⊢
    split at h1 <;> simp_all
  · exact .inl rfl

theorem OfOwnTokens.explains {chunks : List (List TokenEntry)} {os : List (Out ParseError (Option Event))} (h : OfOwnTokens chunks os) {e : Event}
    (he : .ok (some e) ∈ os) : ∃ us, us.Sublist chunks.flatten ∧ Explains us e.data := by
  induction h with
  | nil => cases he
  | @cons ts chunks o os h _ ih =>
    rcases List.mem_cons.1 he with rfl | he
    · obtain ⟨us, h1, h2⟩ := h e rfl
      exact ⟨us, h1.trans (by simp), h2⟩
    · obtain ⟨us, h1, h2⟩ := ih he
      exact ⟨us, h1.trans (by simp), h2⟩

/-- The scalars of any calls. -/
theorem calls_as {lazy : Bool} (hd : ∀ s, ∀ e ∈ (drive s).2.1, Asked.As lazy e) {src : σ} {os : List (Out ParseError (Option Event))} {s : PS σ}
    (h : Calls drive (start src) os s) {a b : Nat} {n : Node} {c : ScalarLike} (he : .ok (some ⟨a, b, .Scalar n c⟩) ∈ os) :
    c = .empty ∨ (lazy = false ∧ ∃ v, c = .Eager v) ∨ lazy = true ∧ ∃ l, c = .Lazy l := by
  obtain ⟨ops, chunks, -, h1, h2⟩ := C70_own_tokens h
  obtain ⟨us, h3, h4⟩ := h2.explains he
  rcases scalar_of_explains h4 with h | ⟨t, ht, hp⟩
  · exact .inl h
  · have := Asked.handed_as hd ops t (by rw [h1]; exact h3.subset ht)
    unfold pieces at hp
    split at hp <;> simp only [List.cons.injEq, Piece.scalar.injEq, and_true, reduceCtorEq, false_and] at hp
    · next hw => exact .inr (.inl ⟨this.1 _ _ hw, _, hp.symm⟩)
    · next hw => exact .inr (.inr ⟨this.2 _ hw, _, hp.symm⟩)

/-- **C67** for texts, also after errors. -/
theorem C67_text_calls {src : BorrowReader} {f : Flags} {os : List (Out ParseError (Option Event))} {s : Events Scanner}
    (h : Calls (Events.textDrive src f) Events.ofText os s) {a b : Nat} {n : Node} {c : ScalarLike} (he : .ok (some ⟨a, b, .Scalar n c⟩) ∈ os) :
    ScalarAsAsked f c := asAsked_of (calls_as (fun _ => Asked.borrow_as) h he)

/-- **C67** for sources that are read, also after errors. -/
theorem C67_read_calls {src : Owned} {f : Flags} {os : List (Out ParseError (Option Event))} {s : Events (Owned × Scanner)}
    (h : Calls (Events.readDrive f) (Events.ofRead src) os s) {a b : Nat} {n : Node} {c : ScalarLike} (he : .ok (some ⟨a, b, .Scalar n c⟩) ∈ os) :
    ScalarAsAsked f c := asAsked_of (calls_as (fun s => Asked.owned_as _ _ _ _ fun e he => by cases he) h he)

/-- Deferred scalars after an error. -/
example : ∃ os s, Calls (Events.textDrive (fromUtf8 "- !x!y &k a\n- b".toList) (Flags.lazy Flags.new)) Events.ofText os s ∧
    (∃ e, os[3]? = some (.err e)) ∧ ∃ e n l, os[4]? = some (.ok (some ⟨e, e, .Scalar n (.Lazy l)⟩)) :=
  ⟨_, _, someCalls_calls (drive := Events.textDrive (fromUtf8 "- !x!y &k a\n- b".toList) (Flags.lazy Flags.new)) (fuel := 40) 6 (s := Events.ofText)
    (by decide +kernel), ⟨_, rfl⟩, _, _, _, rfl⟩

end Yary
