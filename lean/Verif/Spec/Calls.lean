import Verif.Model.Parser
import Verif.Spec.Grammar

/-!
# Using the event API

Histories of `next_event` calls on one parser and one token source, as a user of the iterator
makes them, and the vocabulary the event properties are stated in.
-/

namespace Yary.Spec

variable {σ : Type}

/-- A fresh parser over a fresh reader on the source state `src`. -/
def start (src : σ) : PS σ := { parser := Parser.new, tokens := PeekReader.new src }

/-- Consecutive calls that each handed out an event (`Some(Ok(e))`). The fuel of a call only says
that the call finished. -/
inductive Yields (drive : Drive σ) : PS σ → List Event → PS σ → Prop where
  | nil (s : PS σ) : Yields drive s [] s
  | cons {s s' s'' : PS σ} {e : Event} {es : List Event} (fuel : Nat)
      (h : Parser.nextEvent drive fuel s = (.ok (some e), s')) (t : Yields drive s' es s'') :
      Yields drive s (e :: es) s''

/-- The iterator returns `None`. -/
def Finished (drive : Drive σ) (s : PS σ) : Prop :=
  ∃ fuel s', Parser.nextEvent drive fuel s = (.ok none, s')

/-- Any consecutive calls that returned at all: events, `None`, errors, or a panic. -/
inductive Calls (drive : Drive σ) : PS σ → List (Out ParseError (Option Event)) → PS σ → Prop where
  | nil (s : PS σ) : Calls drive s [] s
  | cons {s s' s'' : PS σ} {o : Out ParseError (Option Event)}
      {os : List (Out ParseError (Option Event))} (fuel : Nat)
      (h : Parser.nextEvent drive fuel s = (o, s')) (hd : o ≠ .diverge)
      (t : Calls drive s' os s'') : Calls drive s (o :: os) s''

/-- The kinds of the events. -/
def evs (es : List Event) : List Ev := es.map fun e => Ev.of e.data

/-- The kinds of the events with the positions they claim. -/
def kinds (es : List Event) : List KEv := es.map fun e => KEv.of e.data

/-- Some document starts with an alias. -/
def HasRootAlias (es : List Event) : Prop :=
  ∃ u v : List Ev, evs es = u ++ .docStart :: .alias :: v

/-- The directives of the last `DocumentStart` among the events. -/
def activeDirectives : List Event → Option Directives
  | [] => none
  | e :: es =>
    match activeDirectives es, e.data with
    | some d, _ => some d
    | none, .DocumentStart d _ => some d
    | none, _ => none

/-- The tag of a node event. -/
def tagOf : EventData → Option (Str × Str)
  | .Scalar n _ => n.tag
  | .SequenceStart n => n.tag
  | .MappingStart n => n.tag
  | _ => none

/-- `h` is one of the handles of the map. -/
def Defines (d : Directives) (h : Str) : Prop := ∃ p, (h, p) ∈ d.tags

/-- A token list as a source that delivers one token at a time. -/
def listDrive : Drive (List TokenEntry) := fun l =>
  match l with
  | [] => (.ok (), [], [])
  | t :: ts => (.ok (), [t], ts)

end Yary.Spec
