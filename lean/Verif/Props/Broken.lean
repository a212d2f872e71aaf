import Verif.Proof.Chunk.Broken
import Verif.Proof.Lazy.Events
import Verif.Props.Events
import Verif.Props.Final

/-! # C76: a source that fails midway: what was returned before stands, whatever would have followed, and the stream does not end -/

namespace Yary

open Spec

variable {text : List Char} {opts : SFlags} {size : Nat → Nat → Nat} {src : Source} {e : IoError}

theorem agree_yields {σ : Type} {d : Drive σ} {E : ReaderError → Prop} : ∀ {es : List Event} {s s1 : PS σ} {os : List (Out ParseError (Option Event))},
    Calls d s os s1 → AgreeEvents E (es.map fun e => .ok (some e)) os → ∃ s', Yields d s es s'
  | [], s, _, _, _, _ => ⟨s, .nil s⟩
  | ev :: es, s, s1, os, hc, ha => by
    cases ha with
    | goes ho rest =>
      cases hc with
      | cons fuel h hd t =>
        obtain ⟨s', hy⟩ := agree_yields t rest
        exact ⟨s', .cons fuel h hy⟩
    | stops ho => exact absurd rfl (ho.1 _)

/-- **C76**, scalars that are not lazy. Let a source deliver some bytes and then fail, and let a stream of events over it have returned some events. Whatever
text the bytes are the beginning of, the stream over all of that text returns these events, too. So they do not depend on what would have followed. -/
theorem C76_partial (hsize : ∀ a b, 0 < size a b) (hl : opts.lazy = false) {bytes : Str} (ht : bytes <+: utf8 text) {es : List Event} {s : PS (Owned × Scanner)}
    (h : Yields (ownedDrive size opts) (start ({ source := (bytes, some e) :: src }, {})) es s) :
    ∃ s', Yields (borrowDrive opts (utf8 text)) (start {}) es s' := by
  obtain ⟨rest, hr⟩ := ht
  have hs : Supplies ((bytes, some e) :: src) (utf8 text) (some e) := hr ▸ .part bytes rest e src
  have hc := Later.yields_calls h (.nil s)
  rw [List.append_nil] at hc
  obtain ⟨os', s', h1, h2⟩ := C46_partial hsize hl hs hc
  exact agree_yields h1 h2

/-- **C76**, lazy scalars in texts without the characters that begin block scalars: the same. -/
theorem C76_lazy_partial (hsize : ∀ a b, 0 < size a b) (hl : opts.lazy = true) (hb : '|' ∉ text ∧ '>' ∉ text) {bytes : Str} (ht : bytes <+: utf8 text)
    {es : List Event} {s : PS (Owned × Scanner)} (h : Yields (ownedDrive size opts) (start ({ source := (bytes, some e) :: src }, {})) es s) :
    ∃ s', Yields (borrowDrive opts (utf8 text)) (start {}) es s' := by
  obtain ⟨rest, hr⟩ := ht
  have hs : Supplies ((bytes, some e) :: src) (utf8 text) (some e) := hr ▸ .part bytes rest e src
  have hc := Later.yields_calls h (.nil s)
  rw [List.append_nil] at hc
  obtain ⟨os', s', h1, h2⟩ := C46_lazy_exact_partial hsize hl hb hs hc
  exact agree_yields h1 h2

theorem follows_yields {σ : Type} {d : Drive σ} {C : ScalarLike → ScalarLike → Prop} {es : List Event} {s s1 : PS σ} {os : List (Out ParseError (Option Event))}
    (hc : Calls d s os s1) (ha : Follows C (es.map fun e => .ok (some e)) os) : ∃ es' s', Yields d s es' s' ∧ es'.length = es.length ∧
      ∀ (i : Nat) (e e' : Event), es[i]? = some e → es'[i]? = some e' → SameEvent C e e' := by
  induction es generalizing s os with
  | nil => exact ⟨[], s, .nil s, rfl, fun i e e' h => by simp at h⟩
  | cons ev es ih =>
    rw [List.map_cons] at ha
    cases ha with
    | @event _ ev' _ _ he rest =>
      cases hc with
      | cons fuel h hd t =>
        obtain ⟨es', s', hy, hl, hi⟩ := ih t rest
        refine ⟨ev' :: es', s', .cons fuel h hy, congrArg (· + 1) hl, fun i => ?_⟩
        cases i with
        | zero => intro e e' h1 h2; cases h1; cases h2; exact he
        | succ i => intro e e' h1 h2; exact hi i e e' (by simpa using h1) (by simpa using h2)
    | fails ho => exact absurd rfl (ho _)

/-- **C76**, lazy scalars in texts without a carriage return: the stream over the whole text returns as many events, and the same ones, except that a
block scalar may have been told that the text goes on, so that evaluating it asks for more text, or gives the same. -/
theorem C76_later_partial (hsize : ∀ a b, 0 < size a b) (hl : opts.lazy = true) (hr : '\r' ∉ text) {bytes : Str} (ht : bytes <+: utf8 text)
    {es : List Event} {s : PS (Owned × Scanner)} (h : Yields (ownedDrive size opts) (start ({ source := (bytes, some e) :: src }, {})) es s) :
    ∃ es' s', Yields (borrowDrive opts (utf8 text)) (start {}) es' s' ∧ es'.length = es.length ∧
      ∀ (i : Nat) (e e' : Event), es[i]? = some e → es'[i]? = some e' → SameEvent LaterScalar e e' := by
  obtain ⟨rest, hr'⟩ := ht
  have hs : Supplies ((bytes, some e) :: src) (utf8 text) (some e) := hr' ▸ .part bytes rest e src
  have hc := Later.yields_calls h (.nil s)
  rw [List.append_nil] at hc
  obtain ⟨os', s', h1, h2⟩ := C46_lazy_partial hsize hl hr hs hc
  exact follows_yields h1 h2

/-- The scalars among events, evaluated. -/
def evaluatedScalars (es : List Event) : List (Out ScanError Token) :=
  es.filterMap fun e => match e.data with
    | .Scalar _ c => some (scalarOf c)
    | _ => none

/-- For lazy block scalars **C76** is false: the fifth event is a block scalar that cannot be evaluated any more, although all of it, and more, was delivered,
and the sixth event was returned after it. (That the other value lacks its line break is `C20_false_chomp`.) -/
theorem C76_lazy_false : ∃ (bytes : Str) (text : List Char), bytes = utf8 text ∧ ∃ es s s', es.length = 6 ∧
    Yields (ownedDrive (fun _ _ => 3) ⟨false, true⟩) (start ({ source := [(bytes, some ⟨7, .Other 5⟩)] }, {})) es s ∧
    evaluatedScalars es = [.ok (.Scalar (bytes! "d") .Plain), .err .Extend, .ok (.Scalar (bytes! "f") .Plain)] ∧
    Yields (borrowDrive ⟨false, true⟩ (utf8 text)) (start {}) (collect (borrowDrive ⟨false, true⟩ (utf8 text)) 60 6 (start {})).1 s' ∧
    evaluatedScalars (collect (borrowDrive ⟨false, true⟩ (utf8 text)) 60 6 (start {})).1 =
      [.ok (.Scalar (bytes! "d") .Plain), .ok (.Scalar (bytes! "e") .Literal), .ok (.Scalar (bytes! "f") .Plain)] :=
  ⟨bytes! "d: |\n  e\nf: g\nh", "d: |\n  e\nf: g\nh".toList, by decide +kernel,
    (collect (ownedDrive (fun _ _ => 3) ⟨false, true⟩) 60 6 (start ({ source := [(bytes! "d: |\n  e\nf: g\nh", some ⟨7, .Other 5⟩)] }, {}))).1, _, _,
    by decide +kernel, collect_yields 60 6 _, by decide +kernel, collect_yields 60 6 _, by decide +kernel⟩

/-- **C76**, the end. No call on a stream over such a source returns the end of the stream, or `None`, until one has reported the failure of the source:
a text that was cut off is not taken for a whole one. Whatever else the calls have returned, if not a panic, for all flags and sizes of chunks. -/
theorem C76_no_end (hsize : ∀ a b, 0 < size a b) {bytes : Str} {os : List (Out ParseError (Option Event))} {s : PS (Owned × Scanner)}
    (h : Calls (ownedDrive size opts) (start ({ source := (bytes, some e) :: src }, {})) os s) (hp : ∀ o ∈ os, o ≠ .panic)
    (he : ∀ o ∈ os, o ≠ .err (.ofReader (.IO e))) :
    .ok none ∉ os ∧ ∀ ev, .ok (some ev) ∈ os → ev.data ≠ .StreamEnd := by
  have hn := Broken.calls_open (K := fun o => o ≠ .panic ∧ o ≠ .err (.IO e)) (fun _ => ⟨nofun, nofun⟩)
    (s0 := PeekReader.new (({ source := (bytes, some e) :: src } : Owned), ({} : Scanner))) (fun ops hK => Chunk.handed_broken hsize hK) h
    (fun o ho => ⟨hp o ho, fun e' he' => ⟨nofun, fun hc => he o ho (by cases hc; exact he')⟩⟩) (ops0 := []) rfl nofun rfl
  exact ⟨fun ho => hn _ ho (.inl rfl), fun ev ho hev => hn _ ho (.inr ⟨ev, rfl, hev⟩)⟩


/-- A source that fails in a flow sequence. -/
def failing : Owned × Scanner := ({ source := [(bytes! "a: [b, c", some ⟨7, .Other 5⟩)] }, {})

/-- In chunks of three bytes: four events are returned, those of either of two texts that begin with these bytes and go on in different ways. -/
example : ∃ s, Yields (ownedDrive (fun _ _ => 3) {}) (start failing) (collect (ownedDrive (fun _ _ => 3) {}) 60 4 (start failing)).1 s ∧
    (collect (ownedDrive (fun _ _ => 3) {}) 60 4 (start failing)).1.length = 4 ∧
    bytes! "a: [b, c" <+: utf8 "a: [b, cd]\n".toList ∧ bytes! "a: [b, c" <+: utf8 "a: [b, c: \"".toList ∧
    (collect (ownedDrive (fun _ _ => 3) {}) 60 4 (start failing)).1 = (collect (borrowDrive {} (utf8 "a: [b, cd]\n".toList)) 60 4 (start {})).1 ∧
    (collect (ownedDrive (fun _ _ => 3) {}) 60 4 (start failing)).1 = (collect (borrowDrive {} (utf8 "a: [b, c: \"".toList)) 60 4 (start {})).1 :=
  ⟨_, collect_yields 60 4 _, by decide +kernel, by decide +kernel, by decide +kernel, by decide +kernel, by decide +kernel⟩

/-- Then the failure is reported. After this calls may go on, see `C36_false`. -/
example : (someCalls (ownedDrive (fun _ _ => 3) {}) 60 5 (start failing)).1.map Out.void = List.replicate 4 (.ok ()) ++ [.err (.IO ⟨7, .Other 5⟩)] := by
  decide +kernel

/-- Errors of the text do not make the stream end, either: calls on a source that fails, without its failure among what they return. -/
example : let d := ownedDrive (fun _ _ => 3) {}
    let s := start (({ source := [(bytes! "[a]\n]\n- b", some ⟨7, .Other 5⟩)] }, {}) : Owned × Scanner)
    Calls d s (someCalls d 60 8 s).1 (someCalls d 60 8 s).2 ∧ (∀ o ∈ (someCalls d 60 8 s).1, o ≠ .panic) ∧
    (∀ o ∈ (someCalls d 60 8 s).1, o ≠ .err (.ofReader (.IO ⟨7, .Other 5⟩))) ∧
    (someCalls d 60 8 s).1.map Out.void = List.replicate 5 (.ok ()) ++ List.replicate 3 (.err (.Scanner .IntOverflow)) :=
  ⟨someCalls_calls 8 (by decide +kernel), by decide +kernel, by decide +kernel, by decide +kernel⟩

end Yary
