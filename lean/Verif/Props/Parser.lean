import Verif.Proof.Erase

/-! # C03–C06, C09, C10: the event stream -/

namespace Yary

open Spec

variable {σ : Type} {drive : Drive σ}

/-! ### A runnable history, for the examples -/

/-- Call `next_event` until it does not hand out an event, at most `n` times. -/
def collect (drive : Drive σ) (fuel : Nat) : Nat → PS σ → List Event × PS σ
  | 0, s => ([], s)
  | n + 1, s =>
    match Parser.nextEvent drive fuel s with
    | (.ok (some e), s') => let r := collect drive fuel n s'; (e :: r.1, r.2)
    | _ => ([], s)

theorem collect_yields (fuel n : Nat) (s : PS σ) :
    Yields drive s (collect drive fuel n s).1 (collect drive fuel n s).2 := by
  induction n generalizing s with
  | zero => exact .nil s
  | succ n ih =>
    unfold collect
    split
    · next e s' h => exact .cons fuel h (ih s')
    · exact .nil s

theorem finished_of (fuel : Nat) {s : PS σ} (h : (Parser.nextEvent drive fuel s).1 = .ok none) :
    Finished drive s := ⟨fuel, _, Prod.ext h rfl⟩

/-- `%TAG !e! x:`, `---`, `k: !e!t [v]`, `...`, `*a` as tokens. -/
def exampleTokens : List TokenEntry :=
  [⟨.Token (.StreamStart .UTF8), 0⟩,
   ⟨.Token (.TagDirective (bytes! "!e!") (bytes! "x:")), 0⟩,
   ⟨.Token .DocumentStart, 12⟩,
   ⟨.Token .BlockMappingStart, 16⟩, ⟨.Token .Key, 16⟩,
   ⟨.Token (.Scalar (bytes! "k") .Plain), 16⟩, ⟨.Token .Value, 17⟩,
   ⟨.Token (.Tag (bytes! "!e!") (bytes! "t")), 19⟩,
   ⟨.Token .FlowSequenceStart, 24⟩, ⟨.Token (.Scalar (bytes! "v") .Plain), 25⟩,
   ⟨.Token .FlowSequenceEnd, 26⟩, ⟨.Token .BlockEnd, 28⟩,
   ⟨.Token .DocumentEnd, 28⟩, ⟨.Token .StreamEnd, 32⟩]

/-- The same stream with an alias as the only content of a document. -/
def rootAliasTokens : List TokenEntry :=
  [⟨.Token (.StreamStart .UTF8), 0⟩, ⟨.Token (.Alias (bytes! "a")), 0⟩, ⟨.Token .StreamEnd, 2⟩]

/-! ### C03: the documented grammar -/

/-- **C03** (partial). Whatever the token source does, the events handed out so far are a prefix
of a sentence of the documented grammar, extended by documents consisting of a single alias, and
they are a whole sentence when the iterator finishes.

Missing: the documentation does not allow `DocumentStart Alias DocumentEnd`, but the parser
emits it (`C03_root_alias_emitted`). When no alias directly follows a document start, the
documented grammar holds without the extension (`C03_event_grammar_no_root_alias`). -/
theorem C03_event_grammar_partial {src : σ} {es : List Event} {s : PS σ}
    (h : Yields drive (start src) es s) :
    (∃ rest, Documented.Stream True (evs es ++ rest)) ∧
    (Finished drive s → Documented.Stream True (evs es)) := by
  have := yields_stream h True fun _ => trivial
  refine ⟨?_, fun hf => ?_⟩
  · obtain ⟨rest, hr⟩ := this.1
    exact ⟨rest.map KEv.erase, by simpa [evs_eq] using stream_erase hr⟩
  · rw [evs_eq]
    exact stream_erase (this.2 hf)

/-- C03 exactly as documented, for histories in which no document starts with an alias. -/
theorem C03_event_grammar_no_root_alias {src : σ} {es : List Event} {s : PS σ}
    (h : Yields drive (start src) es s) (hra : ¬ Spec.HasRootAlias es) :
    (∃ rest, Documented.Stream False (evs es ++ rest)) ∧
    (Finished drive s → Documented.Stream False (evs es)) := by
  have := yields_stream h False hra
  refine ⟨?_, fun hf => ?_⟩
  · obtain ⟨rest, hr⟩ := this.1
    exact ⟨rest.map KEv.erase, by simpa [evs_eq] using stream_erase hr⟩
  · rw [evs_eq]
    exact stream_erase (this.2 hf)

/-- The documented grammar does not hold of all histories: the stream `*a` finishes without an
error, and its events are no sentence. -/
theorem C03_root_alias_emitted :
    ∃ (src : List TokenEntry) (es : List Event) (s : PS (List TokenEntry)),
      Yields listDrive (start src) es s ∧ Finished listDrive s ∧
      ¬ Documented.Stream False (evs es) := by
  refine ⟨rootAliasTokens, _, _, collect_yields 10 10 _, finished_of 10 (by decide +kernel), ?_⟩
  intro h
  refine stream_no_rootAlias h ⟨[.streamStart], [.docEnd, .streamEnd], ?_⟩
  decide +kernel

example : Yields listDrive (start exampleTokens)
      (collect listDrive 20 20 (start exampleTokens)).1
      (collect listDrive 20 20 (start exampleTokens)).2 ∧
    evs (collect listDrive 20 20 (start exampleTokens)).1 =
      [.streamStart, .docStart, .mapStart, .scalar, .seqStart, .scalar, .seqEnd, .mapEnd,
        .docEnd, .streamEnd] ∧
    Finished listDrive (collect listDrive 20 20 (start exampleTokens)).2 :=
  ⟨collect_yields _ _ _, by decide +kernel, finished_of 20 (by decide +kernel)⟩

example : ¬ Spec.HasRootAlias (collect listDrive 20 20 (start exampleTokens)).1 := by
  rintro ⟨u, v, h⟩
  rw [show evs (collect listDrive 20 20 (start exampleTokens)).1 =
      [.streamStart, .docStart, .mapStart, .scalar, .seqStart, .scalar, .seqEnd, .mapEnd,
        .docEnd, .streamEnd] by decide +kernel] at h
  match u, h with
  | [], h => simp at h
  | [_], h => simp at h
  | _ :: _ :: u, h =>
    have : Ev.docStart ∈ u ++ .docStart :: .alias :: v := by simp
    simp only [List.cons_append, List.cons.injEq] at h
    rw [← h.2.2] at this
    simp at this

/-! ### C04: stream marks -/

/-- **C04.** The first event is `StreamStart` and no other event is; a `StreamEnd` is the last
event, and after it every call returns `None` and leaves parser and token source untouched. -/
theorem C04_stream_marks {src : σ} {es : List Event} {s : PS σ}
    (h : Yields drive (start src) es s) :
    (∀ u e v, es = u ++ e :: v → (Ev.of e.data = .streamStart ↔ u = [])) ∧
    (∀ u e v, es = u ++ e :: v → e.data = .StreamEnd → v = [] ∧
      ∀ fuel, Parser.nextEvent drive (fuel + 1) s = (.ok none, s)) := by
  obtain ⟨rest, hr⟩ := (C03_event_grammar_partial h).1
  obtain ⟨m, hm, hmarks⟩ := stream_shape hr
  refine ⟨?_, ?_⟩
  · rintro u e v rfl
    simp only [evs, List.map_append, List.map_cons] at hm
    cases u with
    | nil =>
      simp only [List.map_nil, List.nil_append, List.cons_append, List.cons.injEq] at hm
      simp [hm.1]
    | cons u0 us =>
      simp only [List.map_cons, List.cons_append, List.cons.injEq] at hm
      simp only [reduceCtorEq, iff_false]
      intro he
      have : Ev.of e.data ∈ m ++ [.streamEnd] := by rw [← hm.2]; simp
      rw [he] at this
      rcases List.mem_append.mp this with h | h
      · exact (hmarks _ h).1 rfl
      · simp at h
  · rintro u e v rfl he
    have hv : v = [] := by
      simp only [evs, List.map_append, List.map_cons] at hm
      cases u with
      | nil =>
        simp only [List.map_nil, List.nil_append, List.cons_append, List.cons.injEq] at hm
        rw [he] at hm
        simp [Ev.of] at hm
      | cons u0 us =>
        simp only [List.map_cons, List.cons_append, List.cons.injEq, List.append_assoc] at hm
        have hm := hm.2
        rw [he] at hm
        cases v with
        | nil => rfl
        | cons v0 vs =>
          exfalso
          -- the whole stream has its only `streamEnd` at the very end
          have hl : ∀ (a b m : List Ev), a ++ .streamEnd :: b = m ++ [.streamEnd] →
              b ≠ [] → .streamEnd ∈ m := by
            intro a b m h hb
            rcases List.append_eq_append_iff.mp h with ⟨c, rfl, hc⟩ | ⟨c, rfl, hc⟩
            · cases c with
              | nil => simp at hc; exact absurd hc.symm (by simpa using hb)
              | cons c0 cs => simp only [List.cons_append, List.cons.injEq] at hc; simp [hc.1.symm]
            · cases c with
              | nil => simp at hc; exact absurd hc (by simpa using hb)
              | cons c0 cs => simp at hc
          have := hl _ _ _ hm (by simp)
          exact (hmarks _ this).2 rfl
    subst hv
    refine ⟨rfl, fun fuel => Parser.nextEvent_of_done ?_⟩
    obtain ⟨q, q', h1, h2, h3⟩ := run_split (yields_run h)
    cases h3
    exact (next_done h2).2.mpr he

example : ∃ u, (collect listDrive 20 20 (start exampleTokens)).1 =
    u ++ [{ start := 32, stop := 32, data := .StreamEnd }] :=
  ⟨(collect listDrive 20 20 (start exampleTokens)).1.dropLast, by decide +kernel⟩

/-! ### C05: positions -/

/-- **C05.** The node kinds of the events agree with the positions of the nodes: the annotated
events are a prefix of a sentence of the grammar in which a document's top node is `Root`, a
sequence's nodes are `Entry` and a mapping's nodes are alternately `Key` and `Value`; a whole
sentence when the iterator finishes. -/
theorem C05_node_kinds {src : σ} {es : List Event} {s : PS σ}
    (h : Yields drive (start src) es s) :
    (∃ rest, Kinded.Stream True (kinds es ++ rest)) ∧
    (Finished drive s → Kinded.Stream True (kinds es)) :=
  yields_stream h True fun _ => trivial

example : kinds (collect listDrive 20 20 (start exampleTokens)).1 =
    [.streamStart, .docStart, .mapStart .Root, .scalar .Key, .seqStart .Value, .scalar .Entry,
      .seqEnd, .mapEnd, .docEnd, .streamEnd] := by decide +kernel

/-! ### C06: tags -/

/-- **C06.** Every tag on an emitted node has a handle among the directives of the
`DocumentStart` that opened its document, and no scalar carries the non-specific tag `!`. -/
theorem C06_tags_resolvable {src : σ} {es : List Event} {s : PS σ}
    (h : Yields drive (start src) es s) {u v : List Event} {e : Event} (hes : es = u ++ e :: v)
    {handle suffix : Str} (ht : tagOf e.data = some (handle, suffix)) :
    (∃ d, activeDirectives u = some d ∧ Defines d handle) ∧
    (∀ n c, e.data = .Scalar n c → ¬ (handle = bytes! "!" ∧ suffix = [])) := by
  obtain ⟨rest, hr⟩ := (C03_event_grammar_partial h).1
  subst hes
  have hev : Ev.of e.data = .scalar ∨ Ev.of e.data = .seqStart ∨ Ev.of e.data = .mapStart := by
    obtain ⟨a, b, d⟩ := e
    cases d <;> simp_all [tagOf, Ev.of]
  have hin := stream_node_inside hr (u := evs u) (v := evs v ++ rest) (e := Ev.of e.data)
    (by simp [evs]) hev
  obtain ⟨d, hd⟩ := activeDirectives_of_mem hin
  obtain ⟨q, q', h1, h2, h3⟩ := run_split (yields_run h)
  have hdir := run_dirs h1
  rw [hd] at hdir
  have htag := (next_trans h2).2
  rw [hdir] at htag
  simp only [Option.getD_some] at htag
  obtain ⟨a, b, data⟩ := e
  cases data with
  | Scalar n c =>
    have := htag handle suffix ht
    refine ⟨⟨d, hd, tagMap_get_mem this.1⟩, ?_⟩
    intro _ _ _
    exact this.2
  | SequenceStart n => exact ⟨⟨d, hd, tagMap_get_mem (htag handle suffix ht)⟩, by simp⟩
  | MappingStart n => exact ⟨⟨d, hd, tagMap_get_mem (htag handle suffix ht)⟩, by simp⟩
  | _ => simp [tagOf] at ht

example : ((collect listDrive 20 20 (start exampleTokens)).1.map fun e => tagOf e.data) =
    [none, none, none, none, some (bytes! "!e!", bytes! "t"), none, none, none, none, none] := by
  decide +kernel

/-! ### C09: no panics -/

/-- **C09.** Over a source that does not panic itself, no call in any history of calls panics,
whatever tokens and errors the source produces. -/
theorem C09_no_panic (hsrc : ∀ st, (drive st).1 ≠ .panic) {src : σ}
    {os : List (Out ParseError (Option Event))} {s : PS σ}
    (h : Calls drive (start src) os s) : .panic ∉ os := by
  have key : ∀ {s s' : PS σ} {os}, Calls drive s os s' → Parser.Inv s → .panic ∉ os := by
    intro s s' os h
    induction h with
    | nil => simp
    | @cons s s' s'' o os fuel h hd t ih =>
      intro hi
      have hsafe := Parser.nextEventLoop_safe (drive := drive) (fuel := fuel) (n := fuel) (.inl hi)
      rw [show Parser.nextEventLoop drive fuel fuel = Parser.nextEvent drive fuel from rfl, h]
        at hsafe
      simp only [List.mem_cons, not_or]
      exact ⟨fun he => hsafe.2 hsrc he.symm, ih (hsafe.1 hd)⟩
  exact key h Parser.new_inv

/-- A nonsensical token stream and the errors it leads to: the hypotheses are met by histories
with errors. -/
example : ∃ os s, Calls listDrive
      (start [⟨.Token .BlockEnd, 0⟩, ⟨.Token (.StreamStart .UTF8), 0⟩, ⟨.Token .Key, 1⟩]) os s ∧
    os = [.err .CorruptStream] ∧ ∀ st, (listDrive st).1 ≠ .panic :=
  ⟨_, _, .cons 5 rfl (by decide) (.nil _), rfl, by
    intro st
    cases st <;> simp [listDrive]⟩

/-! ### C10: termination -/

/-- **C10.** After any history of calls, a call makes at most two state transitions (more fuel for
the loop of `get_next_event` changes nothing), and over a source that finishes and delivers at
most `μ src` more tokens it terminates: fuel beyond the number of tokens left plus two is never
used up. -/
theorem C10_terminates {src : σ} {os : List (Out ParseError (Option Event))} {s : PS σ}
    (h : Calls drive (start src) os s) :
    (∀ fuel n, Parser.nextEventLoop drive fuel (n + 2) s = Parser.nextEventLoop drive fuel 2 s) ∧
    (∀ μ : σ → Nat, (∀ st, (drive st).1 ≠ .diverge) →
      (∀ st, (drive st).2.1.length + μ (drive st).2.2 ≤ μ st) →
      ∀ fuel, s.tokens.left μ + 2 ≤ fuel → (Parser.nextEvent drive fuel s).1 ≠ .diverge) :=
  have hi := calls_inv h Parser.new_inv
  ⟨fun _ _ => Parser.nextEventLoop_two hi,
   fun _ hs hb _ hf => Parser.nextEvent_noDiv hs hb hi hf⟩

/-- A list is a source that finishes and delivers as many tokens as it has. -/
example : (∀ st, (listDrive st).1 ≠ .diverge) ∧
    (∀ st, (listDrive st).2.1.length + (listDrive st).2.2.length ≤ st.length) := by
  refine ⟨?_, ?_⟩ <;> intro st <;> cases st <;> simp [listDrive]
  omega

end Yary
