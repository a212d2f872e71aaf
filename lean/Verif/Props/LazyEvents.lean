import Verif.Proof.Lazy.Events
import Verif.Props.Afresh
import Verif.Props.Panics

/-! # C62 for events: a stream of events that are evaluated later hides no errors -/

namespace Yary

open Spec

variable {text : List Char}

/-- **C62** for events, for texts in which no `\\\\"` occurs and whose line breaks are CR LF, CR or LF: if a stream with deferred scalars comes to its end without
an error, and all its scalars evaluate, then the stream that evaluates them comes to its end without an error, too, with the same events and what the scalars
evaluate to, up to a final line break of block scalars; unless scanning panics. -/
theorem C62_events_partial (hE : NoEscapedBackslash text) (hB : PlainBreaks text) (x y : Bool) {es : List Event} {s : PS Scanner}
    (h : Yields (borrowDrive ⟨y, true⟩ (utf8 text)) (start {}) es s) (hf : Finished (borrowDrive ⟨y, true⟩ (utf8 text)) s)
    (hval : ∀ e ∈ es, ∀ n c, e.data = .Scalar n c → ∃ t, scalarOf c = .ok t) (hn : ∀ ops, NoPanic (history ⟨x, false⟩ text ops)) :
    ∃ es' s', Yields (borrowDrive ⟨x, false⟩ (utf8 text)) (start {}) es' s' ∧ Finished (borrowDrive ⟨x, false⟩ (utf8 text)) s' ∧
      Pairs (SameEvent CloseScalar) es' es :=
  Later.evaluates (fun _ _ h => Sim.close_entries h) hE hB (fun ops => C20_partial text hE hB x y ops) h hf hval hn

/-- **C62** for events, if in addition every `|` and `>` is followed by `+` or `-`: exactly what the scalars evaluate to. -/
theorem C62_events_chomped_partial (hE : NoEscapedBackslash text) (hB : PlainBreaks text) (hC : Chomped text) (x y : Bool) {es : List Event} {s : PS Scanner}
    (h : Yields (borrowDrive ⟨y, true⟩ (utf8 text)) (start {}) es s) (hf : Finished (borrowDrive ⟨y, true⟩ (utf8 text)) s)
    (hval : ∀ e ∈ es, ∀ n c, e.data = .Scalar n c → ∃ t, scalarOf c = .ok t) (hn : ∀ ops, NoPanic (history ⟨x, false⟩ text ops)) :
    ∃ es' s', Yields (borrowDrive ⟨x, false⟩ (utf8 text)) (start {}) es' s' ∧ Finished (borrowDrive ⟨x, false⟩ (utf8 text)) s' ∧
      Pairs (SameEvent SameScalar) es' es :=
  Later.evaluates (fun _ _ h => Sim.same_entries h) hE hB (fun ops => C20_chomped_partial text hE hB hC x y ops) h hf hval hn

/-- **C62** for events, for ASCII texts that have none of the causes of a panic (C58) in them: nothing else is asked of the stream that evaluates. -/
theorem C62_events_ascii_partial (ascii : ∀ c ∈ text, c.toNat < 128) (hE : NoEscapedBackslash text)
    (hJ : ∀ q r base, utf8 text = q ++ r → ¬ AsciiJam false base r) (x y : Bool) {es : List Event} {s : PS Scanner}
    (h : Yields (borrowDrive ⟨y, true⟩ (utf8 text)) (start {}) es s) (hf : Finished (borrowDrive ⟨y, true⟩ (utf8 text)) s)
    (hval : ∀ e ∈ es, ∀ n c, e.data = .Scalar n c → ∃ t, scalarOf c = .ok t) :
    ∃ es' s', Yields (borrowDrive ⟨x, false⟩ (utf8 text)) (start {}) es' s' ∧ Finished (borrowDrive ⟨x, false⟩ (utf8 text)) s' ∧
      Pairs (SameEvent CloseScalar) es' es := by
  refine C62_events_partial hE (fun c hc => ?_) x y h hf hval fun ops => C58_never ascii hJ ops
  have := ascii c hc
  refine ⟨?_, ?_, ?_⟩ <;> (rintro rfl; revert this; decide)

/-! ### Example -/

/-- The stream over a text with scalars of every style, which are deferred. -/
def lazyStream : List Event × PS Scanner := collect (borrowDrive ⟨false, true⟩ (utf8 lazyText)) 60 16 (start {})

/-- Whether all scalars evaluate. -/
def allEvaluate (es : List Event) : Bool := es.all fun e => match e.data with
  | .Scalar _ c => match scalarOf c with | .ok _ => true | _ => false
  | _ => true

theorem allEvaluate_spec {es : List Event} (h : allEvaluate es = true) : ∀ e ∈ es, ∀ n c, e.data = .Scalar n c → ∃ t, scalarOf c = .ok t := by
  intro e he n c hd
  have h1 := List.all_eq_true.1 h e he
  rw [hd] at h1
  cases hs : scalarOf c with
  | ok t => exact ⟨t, rfl⟩
  | err e => simp [hs] at h1
  | panic => simp [hs] at h1
  | diverge => simp [hs] at h1

/-- The tokens of that text, evaluated. -/
def lazyTokens : List TokenEntry × PeekReader Scanner := popped (borrowDrive ⟨false, false⟩ (utf8 lazyText)) 24 (PeekReader.new {})

theorem quiet_of_pops {opts : SFlags} {toks : List TokenEntry} {q : PeekReader Scanner} (h : Pops (borrowDrive opts (utf8 text)) (PeekReader.new {}) toks q)
    (he : .Token .StreamEnd ∈ toks.map TokenEntry.wrap) (ops : List ROp) : NoPanic (history opts text ops) := by
  intro r hr
  obtain ⟨v, hv⟩ := ((Later.whole_of_pops h he).run (ops := ops)).1 r hr
  rw [hv]
  simp

/-- The hypotheses are met. -/
example : Yields (borrowDrive ⟨false, true⟩ (utf8 lazyText)) (start {}) lazyStream.1 lazyStream.2 ∧
    Finished (borrowDrive ⟨false, true⟩ (utf8 lazyText)) lazyStream.2 ∧ lazyStream.1.length = 16 ∧
    (∀ e ∈ lazyStream.1, ∀ n c, e.data = .Scalar n c → ∃ t, scalarOf c = .ok t) ∧ (∀ ops, NoPanic (history ⟨false, false⟩ lazyText ops)) := by
  refine ⟨?_, finished_of 60 (by decide +kernel),
    by decide +kernel, allEvaluate_spec (by decide +kernel), ?_⟩
  · unfold lazyStream
    exact collect_yields (drive := borrowDrive ⟨false, true⟩ (utf8 lazyText)) 60 16 (start {})
  · have h1 : Pops (borrowDrive ⟨false, false⟩ (utf8 lazyText)) (PeekReader.new {}) lazyTokens.1 lazyTokens.2 := by
      unfold lazyTokens
      exact popped_pops (drive := borrowDrive ⟨false, false⟩ (utf8 lazyText)) 24 (PeekReader.new {})
    have h2 : .Token .StreamEnd ∈ lazyTokens.1.map TokenEntry.wrap := by decide +kernel
    exact quiet_of_pops h1 h2

end Yary
