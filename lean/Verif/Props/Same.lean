import Verif.Proof.Moved.Same
import Verif.Props.Afresh

/-! # C78: documents after an explicit end do not depend on those before it -/

namespace Yary

open Spec

variable {opts : SFlags}

/-- **C78.** Two texts with streams of events that have both returned the end of a document marked by `...`, and what follows the two markers is the same text.
Then further calls, as many on the one as on the other, return the same, up to positions: there is a list `ls` of which both are copies, the positions counted
on from those of the two markers. This holds up to and including the first failure of the source. It is required that a block collection was begun before the
marker in both of the texts or in neither; otherwise it is false, see `C78_false`. What follows may be anything, in the line of the marker or after it. For all texts, all flags, all numbers of calls. -/
theorem C78_partial (text₁ text₂ : List Char) {es₁ es₂ : List Event} {s₁ s₂ : PS Scanner} {ev₁ ev₂ : Event} {toks₁ toks₂ : List TokenEntry}
    (h₁ : Yields (borrowDrive opts (utf8 text₁)) (start {}) es₁ s₁) (he₁ : es₁.getLast? = some ev₁) (hev₁ : ev₁.data = .DocumentEnd false)
    (h₂ : Yields (borrowDrive opts (utf8 text₂)) (start {}) es₂ s₂) (he₂ : es₂.getLast? = some ev₂) (hev₂ : ev₂.data = .DocumentEnd false)
    (hu : unread (utf8 text₂) s₂ = unread (utf8 text₁) s₁)
    (ht₁ : Pops (borrowDrive opts (utf8 text₁)) (PeekReader.new {}) toks₁ s₁.tokens)
    (ht₂ : Pops (borrowDrive opts (utf8 text₂)) (PeekReader.new {}) toks₂ s₂.tokens)
    (hb : (∃ t ∈ toks₁, isBlockStart t.marker = true) ↔ ∃ t ∈ toks₂, isBlockStart t.marker = true) :
    ∃ l₁ l₂, ∀ {os₁ os₂ : List (Out ParseError (Option Event))} {t₁ t₂ : PS Scanner}, Calls (borrowDrive opts (utf8 text₁)) s₁ os₁ t₁ →
      Calls (borrowDrive opts (utf8 text₂)) s₂ os₂ t₂ → os₂.length = os₁.length →
      ∃ ls : List (Out ParseError (Option Event)),
        upToSource os₁ = ls.map (Further ev₁.stop l₁) ∧ upToSource os₂ = ls.map (Further ev₂.stop l₂) := by
  have tidy : ∀ text, Tidy [] ⟨{}, utf8 text, []⟩ := fun text =>
    ⟨nested_start text, (validUtf8_iff _).2 ⟨text, rfl⟩, fun h => (by cases h), fun _ => ⟨rfl, rfl⟩, fun ⟨_, h, _⟩ => (by cases h)⟩
  obtain ⟨b, hb₁⟩ : ∃ b, b = true ↔ ∃ t ∈ toks₁, isBlockStart t.marker = true := by
    by_cases h : ∃ t ∈ toks₁, isBlockStart t.marker = true
    · exact ⟨true, iff_of_true rfl h⟩
    · exact ⟨false, iff_of_false (by simp) h⟩
  obtain ⟨P₁, l₁, i₁, e₁, v₁, r₁⟩ := Moved.end_same ((validUtf8_iff _).2 ⟨text₁, rfl⟩) (tidy text₁) h₁ he₁ hev₁ ht₁ hb₁
  obtain ⟨P₂, l₂, i₂, e₂, v₂, r₂⟩ := Moved.end_same ((validUtf8_iff _).2 ⟨text₂, rfl⟩) (tidy text₂) h₂ he₂ hev₂ ht₂ (hb₁.trans hb)
  refine ⟨l₁, l₂, fun c₁ c₂ hl => ?_⟩
  rw [hu] at e₂ r₂
  have d₁ := fun sc sc' (h : Moved.Later P₁ (unread (utf8 text₁) s₁) ev₁.stop l₁ sc sc') => Moved.drive_same (opts := opts) v₁ h
  have d₂ := fun sc sc' (h : Moved.Later P₂ (unread (utf8 text₁) s₁) ev₂.stop l₂ sc sc') => Moved.drive_same (opts := opts) v₁ h
  rw [← e₁] at d₁
  rw [← e₂] at d₂
  exact Moved.calls_both (Moved.tied_mv d₁) (Moved.tied_mv d₂) c₁ (.inr r₁) (.inr r₂) c₂ hl

/-! ### Examples -/

/-- What follows the `...` of both texts: a comment, a document with a mapping and one with a block scalar. -/
abbrev commonRest : String := " # e\n  x: [y]\n--- |\n z\n"

/-- A sequence before it. -/
abbrev afterSequence : List Char := ("- a\n..." ++ commonRest).toList

/-- A mapping with a sequence in it before it. -/
abbrev afterMapping : List Char := ("---\nk:\n  - 'v'\n..." ++ commonRest).toList

/-- The two streams up to the ends of these documents. -/
def sequenceEnd : List Event × PS Scanner := collect (borrowDrive {} (utf8 afterSequence)) 60 6 (start {})
@[inherit_doc sequenceEnd] def mappingEnd : List Event × PS Scanner := collect (borrowDrive {} (utf8 afterMapping)) 60 9 (start {})

/-- The tokens of the two up to there. -/
def sequenceTokens : List TokenEntry × PeekReader Scanner := popped (borrowDrive {} (utf8 afterSequence)) 6 (PeekReader.new {})
@[inherit_doc sequenceTokens] def mappingTokens : List TokenEntry × PeekReader Scanner := popped (borrowDrive {} (utf8 afterMapping)) 12 (PeekReader.new {})

/-- The theorem applies to them. -/
example : Yields (borrowDrive {} (utf8 afterSequence)) (start {}) sequenceEnd.1 sequenceEnd.2 ∧
    Yields (borrowDrive {} (utf8 afterMapping)) (start {}) mappingEnd.1 mappingEnd.2 ∧
    sequenceEnd.1.getLast? = some ⟨7, 7, .DocumentEnd false⟩ ∧ mappingEnd.1.getLast? = some ⟨18, 18, .DocumentEnd false⟩ ∧
    unread (utf8 afterMapping) mappingEnd.2 = unread (utf8 afterSequence) sequenceEnd.2 ∧
    Pops (borrowDrive {} (utf8 afterSequence)) (PeekReader.new {}) sequenceTokens.1 sequenceEnd.2.tokens ∧
    Pops (borrowDrive {} (utf8 afterMapping)) (PeekReader.new {}) mappingTokens.1 mappingEnd.2.tokens ∧
    ((∃ t ∈ sequenceTokens.1, isBlockStart t.marker = true) ↔ ∃ t ∈ mappingTokens.1, isBlockStart t.marker = true) := by
  have h1 : Yields (borrowDrive {} (utf8 afterSequence)) (start {}) sequenceEnd.1 sequenceEnd.2 := by
    unfold sequenceEnd
    exact collect_yields (drive := borrowDrive {} (utf8 afterSequence)) 60 6 (start {})
  have h2 : Yields (borrowDrive {} (utf8 afterMapping)) (start {}) mappingEnd.1 mappingEnd.2 := by
    unfold mappingEnd
    exact collect_yields (drive := borrowDrive {} (utf8 afterMapping)) 60 9 (start {})
  have h3 : Pops (borrowDrive {} (utf8 afterSequence)) (PeekReader.new {}) sequenceTokens.1 sequenceTokens.2 := by
    unfold sequenceTokens
    exact popped_pops (drive := borrowDrive {} (utf8 afterSequence)) 6 (PeekReader.new {})
  have h4 : Pops (borrowDrive {} (utf8 afterMapping)) (PeekReader.new {}) mappingTokens.1 mappingTokens.2 := by
    unfold mappingTokens
    exact popped_pops (drive := borrowDrive {} (utf8 afterMapping)) 12 (PeekReader.new {})
  have h5 : sequenceTokens.2 = sequenceEnd.2.tokens := by decide +kernel
  have h6 : mappingTokens.2 = mappingEnd.2.tokens := by decide +kernel
  rw [h5] at h3
  rw [h6] at h4
  exact ⟨h1, h2, by decide +kernel, by decide +kernel, by decide +kernel, h3, h4, by decide +kernel⟩

/-- Here what fourteen further calls return: the same, 11 bytes and two lines further on, to the end of the stream. -/
example : (someCalls (borrowDrive {} (utf8 afterMapping)) 60 14 mappingEnd.2).1 =
      ((someCalls (borrowDrive {} (utf8 afterSequence)) 60 14 sequenceEnd.2).1).map (Further 11 2) ∧
    (someCalls (borrowDrive {} (utf8 afterSequence)) 60 14 sequenceEnd.2).1[11]? = some (.ok (some ⟨30, 30, .StreamEnd⟩)) := by
  decide +kernel

/-- Here a first call that fails, for a second `%YAML`, in both: they go on the same, one byte further on. -/
example : (someCalls (borrowDrive {} (utf8 "k: v\n...\n%YAML 1.1\n%YAML 1.1\n--- a\n".toList)) 60 13 (start {})).1.drop 7 =
      ((someCalls (borrowDrive {} (utf8 "- a\n...\n%YAML 1.1\n%YAML 1.1\n--- a\n".toList)) 60 12 (start {})).1.drop 6).map (Further 1 0) ∧
    (someCalls (borrowDrive {} (utf8 "- a\n...\n%YAML 1.1\n%YAML 1.1\n--- a\n".toList)) 60 12 (start {})).1[6]? = some (.err .DuplicateVersion) := by
  decide +kernel

/-- **C78** without the condition on block collections is false: the same rest after a scalar and after a sequence. -/
theorem C78_false : ∃ text₁ text₂ rest : List Char, text₁ = "a\n...".toList ++ rest ∧ text₂ = "- a\n...".toList ++ rest ∧
    (someCalls (borrowDrive {} (utf8 text₁)) 60 10 (start {})).1[3]? = some (.ok (some ⟨5, 5, .DocumentEnd false⟩)) ∧
    (someCalls (borrowDrive {} (utf8 text₁)) 60 10 (start {})).1[9]? = some (.ok (some ⟨10, 10, .StreamEnd⟩)) ∧
    (someCalls (borrowDrive {} (utf8 text₂)) 60 8 (start {})).1[5]? = some (.ok (some ⟨7, 7, .DocumentEnd false⟩)) ∧
    (someCalls (borrowDrive {} (utf8 text₂)) 60 8 (start {})).1[7]? = some (.err .MissingNode) :=
  ⟨_, _, "\n- b\n".toList, rfl, rfl, by decide +kernel⟩

end Yary
