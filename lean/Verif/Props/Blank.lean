import Verif.Proof.Moved.Blank
import Verif.Props.Afresh

/-! # C77: nothing but white space after the end of a document -/

namespace Yary

open Spec

variable {opts : SFlags}

/-- **C77.** A stream of events has returned the end of a document that is marked by `...`, and only white space and comments follow it. Then the next
call returns the end of the stream, at the end of the text, and every call after it returns `None`. Whatever the document was, and those before it;
calls that panic are excepted, see `C77_ascii`. -/
theorem C77 (text : List Char) {es : List Event} {s : PS Scanner} {ev : Event} (h : Yields (borrowDrive opts (utf8 text)) (start {}) es s)
    (he : es.getLast? = some ev) (hev : ev.data = .DocumentEnd false) {n : Nat} (hr : Skips true (unread (utf8 text) s) n [])
    {o : Out ParseError (Option Event)} {os : List (Out ParseError (Option Event))} {s1 : PS Scanner} (hc : Calls (borrowDrive opts (utf8 text)) s (o :: os) s1)
    (hp : o ≠ .panic) :
    o = .ok (some ⟨ev.stop + (unread (utf8 text) s).length, ev.stop + (unread (utf8 text) s).length, .StreamEnd⟩) ∧ ∀ x ∈ os, x = .ok none := by
  obtain ⟨h1, h2, h3⟩ := Moved.blank_end ((validUtf8_iff _).2 ⟨text, rfl⟩)
    ⟨nested_start text, (validUtf8_iff _).2 ⟨text, rfl⟩, fun h => (by cases h), fun _ => ⟨rfl, rfl⟩, fun ⟨_, h, _⟩ => (by cases h)⟩ h he hev hr
  cases hc with
  | cons fuel hn hd t =>
    rcases h3 with ⟨-, h3⟩ | h3
    · exact absurd (Moved.nextEvent_peek_fails h1 h2 h3 hn hd) hp
    · obtain ⟨s', h4, h5⟩ := h3 0
      obtain ⟨rfl, rfl⟩ := Parser.nextEvent_unique hn h4 hd nofun
      exact ⟨rfl, Moved.calls_done t h5⟩

/-- **C77**, ASCII: there is no panic, and no other reason for which the next call could fail to return. -/
theorem C77_ascii (text : List Char) {es : List Event} {s : PS Scanner} {ev : Event} (h : Yields (borrowDrive opts (utf8 text)) (start {}) es s)
    (he : es.getLast? = some ev) (hev : ev.data = .DocumentEnd false) {n : Nat} (hr : Skips true (unread (utf8 text) s) n [])
    (ha : ∀ b ∈ unread (utf8 text) s, b < 128) :
    ∃ s', Yields (borrowDrive opts (utf8 text)) s [⟨ev.stop + (unread (utf8 text) s).length, ev.stop + (unread (utf8 text) s).length, .StreamEnd⟩] s' := by
  obtain ⟨-, -, h3⟩ := Moved.blank_end ((validUtf8_iff _).2 ⟨text, rfl⟩)
    ⟨nested_start text, (validUtf8_iff _).2 ⟨text, rfl⟩, fun h => (by cases h), fun _ => ⟨rfl, rfl⟩, fun ⟨_, h, _⟩ => (by cases h)⟩ h he hev hr
  rcases h3 with ⟨h3, -⟩ | h3
  · exact absurd ha h3
  · obtain ⟨s', h4, -⟩ := h3 0
    exact ⟨s', .cons 2 h4 (.nil _)⟩

/-! ### Examples -/

/-- A document with a block collection, its `...`, and a comment. -/
abbrev oneDocument : List Char := "- a\n... # b\n".toList

/-- The stream over it up to the end of the document. -/
def toItsEnd : List Event × PS Scanner := collect (borrowDrive {} (utf8 oneDocument)) 60 6 (start {})

theorem toItsEnd_skip : Skips true (utf8 " # b\n".toList) 1 [] := by
  obtain ⟨n, p, h1, -, -, h2⟩ := C14_skips (opts := { extendable := false }) (comments := true) (c := ⟨utf8 " # b\n".toList, {}⟩)
    (c' := ⟨[], ⟨5, 1, 0⟩⟩) (by decide +kernel)
  obtain rfl : 1 = n := by simpa using h2
  exact h1

/-- Both theorems apply to it after six events. -/
example : Yields (borrowDrive {} (utf8 oneDocument)) (start {}) toItsEnd.1 toItsEnd.2 ∧ toItsEnd.1.getLast? = some ⟨7, 7, .DocumentEnd false⟩ ∧
    Skips true (unread (utf8 oneDocument) toItsEnd.2) 1 [] ∧ ∀ b ∈ unread (utf8 oneDocument) toItsEnd.2, b < 128 := by
  have h1 : Yields (borrowDrive {} (utf8 oneDocument)) (start {}) toItsEnd.1 toItsEnd.2 := by
    unfold toItsEnd
    exact collect_yields (drive := borrowDrive {} (utf8 oneDocument)) 60 6 (start {})
  have h2 : unread (utf8 oneDocument) toItsEnd.2 = utf8 " # b\n".toList := by decide +kernel
  exact ⟨h1, by decide +kernel, h2 ▸ toItsEnd_skip, by rw [h2]; decide +kernel⟩

/-- Here what the next three calls return. -/
example : (someCalls (borrowDrive {} (utf8 oneDocument)) 60 3 toItsEnd.2).1 = [.ok (some ⟨12, 12, .StreamEnd⟩), .ok none, .ok none] := by
  decide +kernel

end Yary
