import Verif.Proof.Scan.PlainValue
import Verif.Props.Scalars

/-! # Plain scalars

As in `Props/Scalars`, the theorems range over the states of a scanner between two tokens. The context of the
scanner, `s.sc.context`, tells whether it is inside flow collections, and the indent of the block collection it is in. -/

namespace Yary

open Spec

variable {opts : SFlags} {s s' : SS} {text v : Str} {doc : List Char} {e : TokenEntry}

/-! ### C30 -/

/-- The text of a plain scalar pushed in the step from `s` to `s'`, with the white space and comments `p` before
it. -/
def PlainFrom (s s' : SS) (p text v : Str) : Prop :=
  s.buf = p ++ text ∧ (∃ n, Skips true s.buf n text) ∧
    PlainText s'.sc.context.isBlock (levelSucc s'.sc.context.level) (posAfter s.sc.stats p) text v s'.buf

/-- **C30**, the grammar: a plain scalar pushed is written there, as words with white space between them. -/
theorem C30_means (h : Reach true opts (utf8 doc) s) (hs : Scan.scanNextToken opts s = (.ok (), s'))
    (he : e ∈ pushedBy s s') (ht : e.wrap = .Token (.Scalar v .Plain)) : ∃ p text, PlainFrom s s' p text v := by
  obtain ⟨n, p, text, h1, h2, h3⟩ := step_plain (reach_before ((validUtf8_iff _).2 ⟨doc, rfl⟩) h) hs he ht
  exact ⟨p, text, h2, ⟨n, h1⟩, h3⟩

/-- **C30**: the value of a plain scalar is not empty, and it neither starts nor ends with a blank or a line break. -/
theorem C30_trimmed (h : Reach true opts (utf8 doc) s) (hs : Scan.scanNextToken opts s = (.ok (), s'))
    (he : e ∈ pushedBy s s') (ht : e.wrap = .Token (.Scalar v .Plain)) :
    v ≠ [] ∧ ∀ w, w = [0x20] ∨ w = [0x09] ∨ w ∈ lineBreaks → ¬ w <+: v ∧ ¬ w <:+ v := by
  obtain ⟨p, text, -, -, h3⟩ := C30_means h hs he ht
  refine ⟨?_, fun w hw => ⟨h3.starts hw, h3.stops hw⟩⟩
  rintro rfl
  obtain ⟨⟨w, u, x, h4, h5, -⟩, -⟩ := h3.ends
  exact h4.1 (List.append_eq_nil_iff.1 h5.symm).1

/-- **C30**: a plain scalar without a line break in it is exactly its text. -/
theorem C30_line (h : Reach true opts (utf8 doc) s) (hs : Scan.scanNextToken opts s = (.ok (), s'))
    (he : e ∈ pushedBy s s') (ht : e.wrap = .Token (.Scalar v .Plain)) :
    ∃ p q, s.buf = p ++ (q ++ s'.buf) ∧ (∃ n, Skips true s.buf n (q ++ s'.buf)) ∧
      ((∀ a b, q = a ++ b → b ≠ [] → ¬ AtBreak (b ++ s'.buf)) → v = q) := by
  obtain ⟨p, text, h1, h2, h3⟩ := C30_means h hs he ht
  obtain ⟨q, rfl⟩ := h3.suffix
  exact ⟨p, q, h1, h2, fun hn => (h3.line rfl hn).symm⟩

/-- **C30**, uniqueness: a text is a plain scalar in at most one way. -/
theorem C30_unique {block : Bool} {indent : Nat} {m : MStats} {r v' r' : Str} (h : PlainText block indent m text v r)
    (h' : PlainText block indent m text v' r') : v = v' ∧ r = r' := h.unique h'

/-- **C30**, acceptance: an ASCII text that begins as a plain scalar is one. -/
theorem C30_accepts (hx : opts.extendable = false) (hl : opts.lazy = false) (hk : ¬ KeyDue s) (hc : Comes s text)
    (hA : ∀ b ∈ text, b < 128) (hb : PlainBegins text) :
    ∃ s' v p, Scan.scanNextToken opts s = (.ok (), s') ∧ Pushes s s' (.Token (.Scalar v .Plain)) ∧ PlainFrom s s' p text v := by
  obtain ⟨s', v, h1, h2, p, h3, h4⟩ := step_plain_ok hx hl hk hc hA hb
  exact ⟨s', v, p, h1, h2, h3, hc.2.1, h4⟩

/-- The state before the value in a mapping: a plain scalar of two lines and then a comment. -/
def plainExample : SS := steps {} 3 ⟨{}, bytes! "k: a  b \n\n c d # x", []⟩

/-- The step from there: the line breaks are folded. -/
example : Reach true {} (bytes! "k: a  b \n\n c d # x") plainExample ∧ (Scan.scanNextToken {} plainExample).1 = .ok () ∧
    (pushedBy plainExample (Scan.scanNextToken {} plainExample).2).map (·.wrap) = [.Token (.Scalar (bytes! "a  b\nc d") .Plain)] ∧
    (Scan.scanNextToken {} plainExample).2.buf = bytes! " # x" :=
  ⟨reach_steps 3 .start (by decide +kernel), by decide +kernel, by decide +kernel, by decide +kernel⟩

/-- The text there. -/
example : Comes plainExample (bytes! "a  b \n\n c d # x") ∧ ¬ KeyDue plainExample ∧ (∀ b ∈ bytes! "a  b \n\n c d # x", b < 128) ∧
    PlainBegins (bytes! "a  b \n\n c d # x") := by
  refine ⟨⟨by decide +kernel, ⟨0, ?_⟩, [0x20], by decide +kernel, by decide⟩, ?_, by decide, ?_, .inl ⟨_, _, rfl, by decide⟩⟩
  · have : plainExample.buf = 0x20 :: bytes! "a  b \n\n c d # x" := by decide +kernel
    rw [this]
    refine .blank (.inl rfl) (.done ?_ ?_ (not_break_of (by decide)) ?_)
    · rintro t h; cases h
    · rintro t h; cases h
    · rintro - t h; cases h
  · rintro ⟨k, hk, -⟩
    have : plainExample.sc.key = none := by decide +kernel
    rw [this] at hk
    cases hk
  · rintro ⟨u, h | h, -⟩ <;> cases h

/-- A word by itself. -/
example : PlainText true 1 {} (bytes! "ab: c") (bytes! "ab") (bytes! ": c") := by
  have hs : PlainStops true (bytes! ": c") := .inr (.inr (.inl ⟨_, rfl, .inr (.inl ⟨_, .inl rfl⟩)⟩))
  refine .last (w := bytes! "ab") (p := []) (t := bytes! ": c") (n := 0) ⟨by simp, ?_, hs⟩ (.done ?_ ?_ (not_break_of (by decide)) ?_) ?_
  · intro a b hab hb hst
    have hb' : b = bytes! "ab" ∨ b = bytes! "b" := by
      rcases a with _ | ⟨x, _ | ⟨y, _ | ⟨z, a⟩⟩⟩
      · exact .inl hab.symm
      · simp at hab; exact .inr hab.2.symm
      · simp at hab; exact absurd hab.2.2 hb
      · simp at hab
    rw [stops_iff] at hst
    rcases hb' with rfl | rfl <;> revert hst <;> decide +kernel
  · rintro t h; cases h
  · rintro t h; cases h
  · rintro h; cases h
  · exact fun h => h.2.2.2 hs

/-- At the top level a plain scalar does not go on in column zero: `a` and `b`, in two lines, are two scalars. -/
theorem C30_root {m : MStats} {w p t v r : Str} {n : Nat} (hw : PlainWord true w (p ++ t)) (hs : Skips false (p ++ t) n t)
    (h0 : (posAfter m (w ++ p)).column = 0) (h : PlainText true (levelSucc none) m (w ++ (p ++ t)) v r) : v = w ∧ r = p ++ t :=
  h.unique (.last hw hs fun hg => by
    have := hg.1 rfl
    rw [h0] at this
    exact absurd this (by decide))

example : (steps {} 3 ⟨{}, bytes! "a\nb", []⟩).out.map (·.wrap) =
    [.Token (.StreamStart .UTF8), .Token (.Scalar (bytes! "a") .Plain), .Token (.Scalar (bytes! "b") .Plain)] := by decide +kernel

end Yary
