import Verif.Model.Scan.Scanner
import Verif.Model.Events
import Verif.Model.Error
import Verif.Spec.Position

/-! # Further on in a text

Where tokens and events are, counted in bytes and lines from the beginning of the text. -/

namespace Yary

/-- Further on in a text: by so many bytes, and so many lines. -/
def MStats.mv (w l : Nat) (s : MStats) : MStats := { s with read := s.read + w, lines := s.lines + l }

/-- A deferred scalar further on: the same text and flags, found further on. Quoted scalars count from their beginning. -/
def Lazy.mv (w l : Nat) : Lazy → Lazy
  | .flow opts s stats single => .flow opts s stats single
  | .plain opts s stats indent blk => .plain opts s (stats.mv w l) indent blk
  | .block opts s stats indent fold => .block opts s (stats.mv w l) indent fold

/-- The content of a scalar further on. -/
def ScalarLike.mv (w l : Nat) : ScalarLike → ScalarLike
  | .Eager s => .Eager s
  | .Lazy d => .Lazy (d.mv w l)

/-- What an event says further on: the same. -/
def EventData.mv (w l : Nat) : EventData → EventData
  | .Scalar n c => .Scalar n (c.mv w l)
  | d => d

/-- An event further on: the same, with its positions that many bytes further on. -/
def Event.mv (w l : Nat) (e : Event) : Event := ⟨e.start + w, e.stop + w, e.data.mv w l⟩

namespace Spec

/-- What a call returns, further on: the event further on, or the same error. -/
def Further (w l : Nat) : Out ParseError (Option Event) → Out ParseError (Option Event)
  | .ok e => .ok (e.map (Event.mv w l))
  | .err e => .err e
  | .panic => .panic
  | .diverge => .diverge

/-- What the calls on a text return if as many bytes and lines stand before the text: `StreamStart` is where it was, at the beginning, and
all that follows is further on. -/
def furtherOn (w l : Nat) : List (Out ParseError (Option Event)) → List (Out ParseError (Option Event))
  | [] => []
  | o :: os => o :: os.map (Further w l)

/-- What the scanner of a stream over the text `base` has not read. -/
def unread (base : Str) (s : PS Scanner) : Str := base.drop s.tokens.reader.src.offset

/-- Nothing, or a comment in ASCII. -/
def NoteOrNone (s : Str) : Prop := s = [] ∨ ∃ t, s = 0x23 :: t ∧ ∀ b ∈ t, b < 0x80 ∧ b ≠ 0x0A ∧ b ≠ 0x0D

/-- Lines of spaces and tabs, each with or without a comment. -/
inductive EmptyLines : Str → Prop where
  | nil : EmptyLines []
  | line {blanks note br rest : Str} (hb : ∀ b ∈ blanks, b = 0x20 ∨ b = 0x09) (hn : NoteOrNone note) (hr : br ∈ lineBreaks)
      (more : EmptyLines rest) : EmptyLines (blanks ++ (note ++ (br ++ rest)))

end Spec

end Yary
