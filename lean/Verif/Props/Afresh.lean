import Verif.Proof.Moved.Next
import Verif.Props.Moved

/-! # C74: after an explicit end of a document the stream goes on as one over what follows -/

namespace Yary

open Spec

/-- **C74**, after documents without block collections: when the last event was that of a `...`, what the text holds before it is read and what follows is not,
and if that has a line break before its first token, then further calls return what as many calls of a stream over only that text return after `StreamStart`,
with the positions counted on from that of the `...`. This holds up to and including the first failure of the source, and of the first of these calls in any
case. Of the tokens handed out so far, `toks`, none may begin a block collection. For all texts, all flags, all numbers
of calls. -/
theorem C74_after_end_partial {opts : SFlags} (text : List Char) {es : List Event} {s : PS Scanner} {ev : Event} {toks : List TokenEntry}
    (h : Yields (borrowDrive opts (utf8 text)) (start {}) es s) (he : es.getLast? = some ev) (hev : ev.data = .DocumentEnd false)
    (htoks : Pops (borrowDrive opts (utf8 text)) (PeekReader.new {}) toks s.tokens) (hb : ∀ t ∈ toks, isBlockStart t.marker = false) :
    ∃ before l, utf8 text = before ++ bytes! "..." ++ unread (utf8 text) s ∧
      ∀ n rest, Skips true (unread (utf8 text) s) n rest → n ≠ 0 → rest ≠ [] →
      ∀ {os os' : List (Out ParseError (Option Event))} {s1 s1' : PS Scanner}, Calls (borrowDrive opts (unread (utf8 text) s)) (start {}) os s1 →
        Calls (borrowDrive opts (utf8 text)) s os' s1' → os'.length = os.tail.length →
        os'.head? = os.tail.head?.map (Further ev.stop l) ∧
        ((∀ e, os.tail.head? = some (.err e) → fromSource e = true) → upToSource os' = (upToSource os.tail).map (Further ev.stop l)) := by
  obtain ⟨P, l, h1, h2⟩ := Moved.after_end ((validUtf8_iff _).2 ⟨text, rfl⟩)
    ⟨nested_start text, (validUtf8_iff _).2 ⟨text, rfl⟩, fun h => (by cases h), fun _ => ⟨rfl, rfl⟩, fun ⟨_, h, _⟩ => (by cases h)⟩ h he hev htoks hb
  exact ⟨P, l, h1, fun n rest hR hn hr _ _ _ _ hc hc' hl => (h2 n rest hR hn hr hc).1 hc' hl⟩

/-- **C74**, after documents without block collections: and there are such calls. -/
theorem C74_goes_on_partial {opts : SFlags} (text : List Char) {es : List Event} {s : PS Scanner} {ev : Event} {toks : List TokenEntry}
    (h : Yields (borrowDrive opts (utf8 text)) (start {}) es s) (he : es.getLast? = some ev) (hev : ev.data = .DocumentEnd false)
    (htoks : Pops (borrowDrive opts (utf8 text)) (PeekReader.new {}) toks s.tokens) (hb : ∀ t ∈ toks, isBlockStart t.marker = false) :
    ∃ l, ∀ n rest, Skips true (unread (utf8 text) s) n rest → n ≠ 0 → rest ≠ [] →
      ∀ {os : List (Out ParseError (Option Event))} {s1 : PS Scanner}, Calls (borrowDrive opts (unread (utf8 text) s)) (start {}) os s1 →
        (∀ e, os.tail.head? = some (.err e) → fromSource e = true) →
        ∃ os' s1', Calls (borrowDrive opts (utf8 text)) s os' s1' ∧ upToSource os' = (upToSource os.tail).map (Further ev.stop l) := by
  obtain ⟨P, l, -, h2⟩ := Moved.after_end ((validUtf8_iff _).2 ⟨text, rfl⟩)
    ⟨nested_start text, (validUtf8_iff _).2 ⟨text, rfl⟩, fun h => (by cases h), fun _ => ⟨rfl, rfl⟩, fun ⟨_, h, _⟩ => (by cases h)⟩ h he hev htoks hb
  exact ⟨l, fun n rest hR hn hr _ _ hc he => (h2 n rest hR hn hr hc).2 he⟩

/-! ### Examples -/

deriving instance DecidableEq for QueueEntry, Queue, Reader, PeekReader

/-- The tokens `n` calls of `pop` return, and the reader after them. -/
def popped {σ : Type} (drive : Drive σ) : Nat → PeekReader σ → List TokenEntry × PeekReader σ
  | 0, p => ([], p)
  | n + 1, p =>
    match p.pop drive with
    | (.ok (some e), q) => let r := popped drive n q; (e :: r.1, r.2)
    | _ => ([], p)

theorem popped_pops {σ : Type} {drive : Drive σ} : ∀ (n : Nat) (p : PeekReader σ), Pops drive p (popped drive n p).1 (popped drive n p).2
  | 0, p => .nil p
  | n + 1, p => by
    unfold popped
    split
    · next h => exact .pop h (popped_pops n _)
    · exact .nil p

/-- A document with two flow collections, its `...`, a comment, and a document with block collections. -/
abbrev twoDocuments : List Char := "[a, {b: c}] # d\n... # e\n\n- f: |\n   g\n- 'h'\n".toList

/-- The stream over them after ten events. -/
def tenEvents : List Event × PS Scanner := collect (borrowDrive {} (utf8 twoDocuments)) 60 10 (start {})

/-- The reader of them after twelve tokens. -/
def twelveTokens : List TokenEntry × PeekReader Scanner := popped (borrowDrive {} (utf8 twoDocuments)) 12 (PeekReader.new {})

/-- What follows the `...`. -/
abbrev secondDocument : List Char := " # e\n\n- f: |\n   g\n- 'h'\n".toList

theorem tenEvents_skip : Skips true (utf8 secondDocument) 2 (utf8 "- f: |\n   g\n- 'h'\n".toList) := by
  obtain ⟨n, p, h1, -, -, h2⟩ := C14_skips (opts := { extendable := false }) (comments := true) (c := ⟨utf8 secondDocument, {}⟩)
    (c' := ⟨utf8 "- f: |\n   g\n- 'h'\n".toList, ⟨6, 2, 0⟩⟩) (by decide +kernel)
  obtain rfl : 2 = n := by simpa using h2
  exact h1

/-- The theorem applies to it, after ten events and with twelve tokens. -/
example : Yields (borrowDrive {} (utf8 twoDocuments)) (start {}) tenEvents.1 tenEvents.2 ∧ tenEvents.1.getLast? = some ⟨19, 19, .DocumentEnd false⟩ ∧
    Pops (borrowDrive {} (utf8 twoDocuments)) (PeekReader.new {}) twelveTokens.1 tenEvents.2.tokens ∧
    (∀ t ∈ twelveTokens.1, isBlockStart t.marker = false) ∧
    unread (utf8 twoDocuments) tenEvents.2 = utf8 secondDocument := by
  have h1 : Yields (borrowDrive {} (utf8 twoDocuments)) (start {}) tenEvents.1 tenEvents.2 := by
    unfold tenEvents
    exact collect_yields (drive := borrowDrive {} (utf8 twoDocuments)) 60 10 (start {})
  have h2 : Pops (borrowDrive {} (utf8 twoDocuments)) (PeekReader.new {}) twelveTokens.1 twelveTokens.2 := by
    unfold twelveTokens
    exact popped_pops (drive := borrowDrive {} (utf8 twoDocuments)) 12 (PeekReader.new {})
  have h3 : twelveTokens.2 = tenEvents.2.tokens := by decide +kernel
  rw [h3] at h2
  exact ⟨h1, by decide +kernel, h2, by decide +kernel, by decide +kernel⟩

/-- Here what the calls return, on and on to `StreamEnd`: the same, 19 bytes further on. -/
example : (someCalls (borrowDrive {} (utf8 twoDocuments)) 60 13 tenEvents.2).1 =
    ((someCalls (borrowDrive {} (utf8 secondDocument)) 60 14 (start {})).1.tail).map (Further 19 1) := by
  decide +kernel

/-- **C74** after any document is false: after a sequence and `...` another sequence is an error, although it is read without one when it is alone. -/
theorem C74_false : ∃ text rest : List Char, text = "- a\n...".toList ++ rest ∧ rest = "\n- b\n".toList ∧
    (someCalls (borrowDrive {} (utf8 text)) 60 8 (start {})).1[7]? = some (.err .MissingNode) ∧
    (someCalls (borrowDrive {} (utf8 text)) 60 8 (start {})).1[5]? = some (.ok (some ⟨7, 7, .DocumentEnd false⟩)) ∧
    (someCalls (borrowDrive {} (utf8 rest)) 60 8 (start {})).1[6]? = some (.ok (some ⟨5, 5, .StreamEnd⟩)) :=
  ⟨_, _, rfl, rfl, by decide +kernel⟩

/-- **C74** without a line break is false too: a mapping in the line of the `...` is an error, although it is read without one when it is alone. -/
theorem C74_false_line : ∃ text rest : List Char, text = "a\n...".toList ++ rest ∧ rest = " b: c\n".toList ∧
    (someCalls (borrowDrive {} (utf8 text)) 60 7 (start {})).1[6]? = some (.err (.Scanner .InvalidValue)) ∧
    (someCalls (borrowDrive {} (utf8 text)) 60 7 (start {})).1[3]? = some (.ok (some ⟨5, 5, .DocumentEnd false⟩)) ∧
    (someCalls (borrowDrive {} (utf8 rest)) 60 8 (start {})).1[7]? = some (.ok (some ⟨6, 6, .StreamEnd⟩)) :=
  ⟨_, _, rfl, rfl, by decide +kernel⟩

end Yary
