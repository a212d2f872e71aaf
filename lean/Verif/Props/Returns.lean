import Verif.Proof.Returns
import Verif.Props.AgainDoc
import Verif.Props.Events
import Verif.Props.Final
import Verif.Proof.Lazy.Events
import Verif.Props.Same

/-! # C79: every call over a text returns -/

namespace Yary

open Spec

variable {opts : SFlags} {text : List Char}

theorem calls_join {σ : Type} {drive : Drive σ} {s s1 s2 : PS σ} {os os' : List (Out ParseError (Option Event))} (h : Calls drive s os s1)
    (h' : Calls drive s1 os' s2) : Calls drive s (os ++ os') s2 := by
  induction h with
  | nil => exact h'
  | cons fuel h hd _ ih => exact .cons fuel h hd (ih h')

theorem yields_join {σ : Type} {drive : Drive σ} {s s1 s2 : PS σ} {es es' : List Event} (h : Yields drive s es s1) (h' : Yields drive s1 es' s2) :
    Yields drive s (es ++ es') s2 := by
  induction h with
  | nil => exact h'
  | cons fuel h _ ih => exact .cons fuel h (ih h')

/-- What is known after calls without a panic. -/
theorem calls_kept {os : List (Out ParseError (Option Event))} {s : PS Scanner} (h : Calls (borrowDrive opts (utf8 text)) (start {}) os s)
    (hp : ∀ o ∈ os, o ≠ .panic) : ∃ D, Kept (Midway (utf8 text) Running Ended) s.tokens D := by
  obtain ⟨ops, h1, h2⟩ := Again.calls_quiet h hp
  rw [← h1]
  exact ⟨_, kept_after h2⟩

/-- **C79.** A stream of events over any text, after any calls that did not panic, failures among them: the next call returns. It takes no more steps in
any loop of the parser than the tokens that wait and those the rest of the text can have, and two. -/
theorem C79_returns {os : List (Out ParseError (Option Event))} {s : PS Scanner} (h : Calls (borrowDrive opts (utf8 text)) (start {}) os s)
    (hp : ∀ o ∈ os, o ≠ .panic) {fuel : Nat} (hf : s.tokens.left (Cost.debt (utf8 text)) + 2 ≤ fuel) :
    (Parser.nextEvent (borrowDrive opts (utf8 text)) fuel s).1 ≠ .diverge := by
  obtain ⟨D, hD⟩ := calls_kept h hp
  have hv : validUtf8 (utf8 text) = true := (validUtf8_iff _).2 ⟨text, rfl⟩
  refine Returns.nextEvent_returns (J := Midway (utf8 text) Running Ended) midway_drive (fun sc D hJ => ?_) (fun sc u _ => Returns.borrow_pays hv sc u)
    (calls_inv h Parser.new_inv) hD hf
  exact (borrow_keeps (P := True) (opts := opts) closed_running static_running running_next running_last (.inl trivial) hv hJ rfl).2.1

/-- **C79.** Hence as many further calls as one likes can be made, unless one of them panics. -/
theorem C79_calls {os : List (Out ParseError (Option Event))} {s : PS Scanner} (h : Calls (borrowDrive opts (utf8 text)) (start {}) os s)
    (hp : ∀ o ∈ os, o ≠ .panic) (n : Nat) :
    ∃ os' s', Calls (borrowDrive opts (utf8 text)) s os' s' ∧ (os'.length = n ∨ (.panic ∈ os' ∧ os'.length ≤ n)) := by
  induction n with
  | zero => exact ⟨[], _, .nil _, .inl rfl⟩
  | succ n ih =>
    obtain ⟨os', s', h', hl⟩ := ih
    by_cases hp' : .panic ∈ os'
    · exact ⟨os', s', h', .inr ⟨hp', by rcases hl with hl | hl <;> omega⟩⟩
    · have hn := C79_returns (calls_join h h') (fun o ho he => by
        rcases List.mem_append.1 ho with ho | ho
        · exact hp o ho he
        · exact hp' (he ▸ ho)) (Nat.le_refl _)
      refine ⟨_, _, calls_join h' (.cons _ rfl hn (.nil _)), .inl ?_⟩
      rcases hl with hl | hl
      · simp [hl]
      · exact absurd hl.1 hp'

theorem yields_bound {s : PS Scanner} {es : List Event} (h : Yields (borrowDrive opts (utf8 text)) (start {}) es s) : es.length ≤ 9 * (utf8 text).length + 7 := by
  obtain ⟨ts, h3, h4⟩ := C50_prefix h
  have := pops_le h3
  omega

/-- **C79**, with C50: whatever the text, calling until something else than an event comes back does end, after at most so many calls: with `None`, an error
or a panic. -/
theorem C79_ends (opts : SFlags) (text : List Char) :
    ∃ es s, Yields (borrowDrive opts (utf8 text)) (start {}) es s ∧ es.length ≤ 9 * (utf8 text).length + 7 ∧
      ∃ fuel, (Parser.nextEvent (borrowDrive opts (utf8 text)) fuel s).1 ≠ .diverge ∧
        ∀ e, (Parser.nextEvent (borrowDrive opts (utf8 text)) fuel s).1 ≠ .ok (some e) := by
  have go : ∀ k es s, Yields (borrowDrive opts (utf8 text)) (start {}) es s → 9 * (utf8 text).length + 8 ≤ es.length + k →
      ∃ es s, Yields (borrowDrive opts (utf8 text)) (start {}) es s ∧ ∃ fuel, (Parser.nextEvent (borrowDrive opts (utf8 text)) fuel s).1 ≠ .diverge ∧
        ∀ e, (Parser.nextEvent (borrowDrive opts (utf8 text)) fuel s).1 ≠ .ok (some e) := by
    intro k
    induction k with
    | zero =>
      intro es s h hk
      have := yields_bound h
      omega
    | succ k ih =>
      intro es s h hk
      have hc := Later.yields_calls h (.nil s)
      have hn := C79_returns hc (fun o ho => by
        rw [List.append_nil] at ho
        obtain ⟨e, -, rfl⟩ := List.mem_map.1 ho
        nofun) (Nat.le_refl _)
      generalize s.tokens.left (Cost.debt (utf8 text)) + 2 = fuel at hn
      by_cases he : ∀ e, (Parser.nextEvent (borrowDrive opts (utf8 text)) fuel s).1 ≠ .ok (some e)
      · exact ⟨es, s, h, fuel, hn, he⟩
      · simp only [not_forall, ne_eq, not_not] at he
        obtain ⟨e, he⟩ := he
        refine ih _ _ (yields_join h (.cons fuel (Prod.ext he rfl) (.nil _))) ?_
        rw [List.length_append, List.length_singleton]
        omega
  obtain ⟨es, s, h, hf⟩ := go _ [] _ (.nil _) (Nat.le_add_left _ _)
  exact ⟨es, s, h, yields_bound h, hf⟩

/-! ### Examples -/

/-- The first two apply after six calls over a text of which the last two fail. -/
example : Calls (borrowDrive {} (utf8 "[a, %b".toList)) (start {}) (someCalls (borrowDrive {} (utf8 "[a, %b".toList)) 60 6 (start {})).1
      (someCalls (borrowDrive {} (utf8 "[a, %b".toList)) 60 6 (start {})).2 ∧
    (∀ o ∈ (someCalls (borrowDrive {} (utf8 "[a, %b".toList)) 60 6 (start {})).1, o ≠ .panic) ∧
    [.err (.Scanner .UnknownDelimiter), .err (.Scanner .UnknownDelimiter)] <:+ (someCalls (borrowDrive {} (utf8 "[a, %b".toList)) 60 6 (start {})).1 :=
  ⟨someCalls_calls 6 (by decide +kernel), by decide +kernel, by decide +kernel⟩

end Yary
