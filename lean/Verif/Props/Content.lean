import Verif.Proof.Directives
import Verif.Props.Parser

/-! # C06, C07, C11, C37: events and the tokens they are made of -/

namespace Yary

open Spec

variable {σ : Type} {drive : Drive σ}

/-! ### C37: token content reaches the events -/

/-- **C37.** The tokens taken from the source during a history of successful calls split into one
chunk per event, in order, such that each chunk explains its event: names, tags, scalar content and
directives of the tokens in a chunk are exactly those of the event, and every other token in it
only shapes collections or documents. -/
theorem C37_events_carry_tokens {src : σ} {es : List Event} {s : PS σ}
    (h : Yields drive (start src) es s) :
    ∃ chunks, Explained chunks es ∧
      Pops drive (PeekReader.new src) chunks.flatten s.tokens := by
  obtain ⟨-, cs, hc, rfl⟩ := yields_chunks h (Parser.new_first src)
  exact ⟨_, hc.explained⟩

/-- What remains of a list source. -/
def listRest (p : PeekReader (List TokenEntry)) : List TokenEntry :=
  p.peeked.toList ++ p.reader.src

theorem listDrive_takeNext {p : PeekReader (List TokenEntry)} (hq : p.reader.queue.heap = []) :
    ∃ p', p.takeNext listDrive = (.ok (), p') ∧ p'.reader.queue.heap = [] ∧
      listRest p' = listRest p := by
  unfold PeekReader.takeNext
  split
  · exact ⟨p, rfl, hq, rfl⟩
  · next hp =>
    have hp : p.peeked = none := by simpa using hp
    cases hs : p.reader.src with
    | nil =>
      simp [Queue.isEmpty, hq, Reader.scanTokens, listDrive, hs, Queue.pop, Queue.popLeast,
        listRest, hp]
    | cons t ts =>
      simp [Queue.isEmpty, hq, Reader.scanTokens, listDrive, hs, Queue.pop, Queue.popLeast,
        listRest, hp, Queue.push]

theorem listDrive_pops {p p' : PeekReader (List TokenEntry)} {ts : List TokenEntry}
    (h : Pops listDrive p ts p') (hq : p.reader.queue.heap = []) :
    p'.reader.queue.heap = [] ∧ ts ++ listRest p' = listRest p := by
  induction h with
  | nil => exact ⟨hq, rfl⟩
  | @peek p q p' r ts h t ih =>
    have hstep : q.reader.queue.heap = [] ∧ listRest q = listRest p := by
      unfold PeekReader.peek at h
      split at h
      · simp only [Prod.mk.injEq] at h
        obtain ⟨-, rfl⟩ := h
        exact ⟨hq, rfl⟩
      · split at h
        · obtain ⟨p1, g1, g2, g3⟩ := listDrive_takeNext hq
          rw [g1] at h
          simp only [Prod.mk.injEq] at h
          obtain ⟨-, rfl⟩ := h
          exact ⟨g2, g3⟩
        · simp only [Prod.mk.injEq] at h
          obtain ⟨-, rfl⟩ := h
          exact ⟨hq, rfl⟩
    rw [← hstep.2]
    exact ih hstep.1
  | @pop p q p' e ts h t ih =>
    have hstep : q.reader.queue.heap = [] ∧ e :: listRest q = listRest p := by
      unfold PeekReader.pop at h
      split at h
      · next e0 he =>
        simp only [Prod.mk.injEq, Out.ok.injEq, Option.some.injEq] at h
        obtain ⟨rfl, rfl⟩ := h
        exact ⟨hq, by simp [listRest, he]⟩
      · split at h
        · obtain ⟨p1, g1, g2, g3⟩ := listDrive_takeNext hq
          rw [g1] at h
          simp only [Prod.mk.injEq, Out.ok.injEq] at h
          obtain ⟨he, rfl⟩ := h
          refine ⟨g2, ?_⟩
          rw [← g3]
          simp [listRest, he]
        · simp at h
    rw [← hstep.2]
    have := ih hstep.1
    exact ⟨this.1, by simp [this.2]⟩

/-- **C37** for a list of tokens: the events are explained by consecutive chunks that make up a
prefix of the list. -/
theorem C37_list_source {toks : List TokenEntry} {es : List Event} {s : PS (List TokenEntry)}
    (h : Yields listDrive (start toks) es s) :
    ∃ chunks, Explained chunks es ∧ chunks.flatten ++ listRest s.tokens = toks := by
  obtain ⟨chunks, h1, h2⟩ := C37_events_carry_tokens h
  exact ⟨chunks, h1, (listDrive_pops h2 rfl).2⟩

/-- The example stream is consumed completely. -/
example : ∃ s, Yields listDrive (start exampleTokens)
      (collect listDrive 20 20 (start exampleTokens)).1 s ∧
    (collect listDrive 20 20 (start exampleTokens)).1.length = 10 ∧ listRest s.tokens = [] :=
  ⟨_, collect_yields 20 20 _, by decide +kernel, by decide +kernel⟩

/-! ### C06: undefined tags are rejected -/

/-- **C06**, second half. When a call hands out an event, every tag token it took is on that
event, with a handle defined by the current document's directives, or it is the non-specific tag
`!` in front of a scalar. Tags with an undefined handle are therefore never dropped silently: the
call that takes one does not hand out an event. -/
theorem C06_tag_tokens {src : σ} {es : List Event} {s s' : PS σ} {e : Event} {fuel : Nat}
    (h : Yields drive (start src) es s)
    (hn : Parser.nextEvent drive fuel s = (.ok (some e), s')) :
    ∃ ts, Pops drive s.tokens ts s'.tokens ∧
      ∀ t ∈ ts, ∀ handle suffix, t.wrap = .Token (.Tag handle suffix) →
        (tagOf e.data = some (handle, suffix) ∧
          ∃ d, activeDirectives es = some d ∧ Defines d handle) ∨
        (handle = bytes! "!" ∧ suffix = [] ∧ tagOf e.data = none ∧ ∃ n c, e.data = .Scalar n c) := by
  obtain ⟨hf, -⟩ := yields_chunks h (Parser.new_first src)
  obtain ⟨-, ts, hp, hx, -⟩ := Parser.nextEvent_tr hf hn
  refine ⟨ts, hp, ?_⟩
  intro t ht handle suffix hw
  have hyield : Yields drive (start src) (es ++ [e]) s' := by
    clear hf hp hx
    generalize start src = s0 at h
    induction h with
    | nil => exact .cons fuel hn (.nil _)
    | cons f g _ ih => exact .cons f g (ih hn)
  have hres : tagOf e.data = some (handle, suffix) →
      ∃ d, activeDirectives es = some d ∧ Defines d handle :=
    fun h0 => (C06_tags_resolvable hyield (u := es) (v := []) rfl h0).1
  have hpc : Piece.tag handle suffix ∈ ts.flatMap pieces := by
    rw [List.mem_flatMap]
    exact ⟨t, ht, by simp [pieces, hw]⟩
  have hprops : ∀ {ps a tg}, Props ps a tg → Piece.tag handle suffix ∈ ps →
      tg = some (handle, suffix) := by
    intro ps a tg hps hm
    rcases hps with rfl | rfl <;>
    · simp only [List.mem_append, List.mem_map, Option.mem_toList] at hm
      rcases hm with ⟨x, hx, hx'⟩ | ⟨x, hx, hx'⟩ <;> simp_all
      rw [← hx'.1, ← hx'.2]
  have hmark : t.marker = .Tag := by
    obtain ⟨w, r⟩ := t
    simp only at hw
    subst hw
    rfl
  obtain ⟨a, b, data⟩ := e
  cases data with
  | StreamStart enc =>
    obtain ⟨n, rfl⟩ := hx
    simp [pieces] at hpc
  | StreamEnd =>
    obtain ⟨ends, n, he, rfl⟩ := hx
    simp only [List.mem_append, List.mem_singleton] at ht
    rcases ht with ht | rfl
    · have := he t ht; rw [hmark] at this; simp at this
    · simp at hw
  | DocumentStart d i =>
    obtain ⟨ends, dirs, mark, rfl, he, hd, h1, h2⟩ := hx
    simp only [List.mem_append] at ht
    rcases ht with (ht | ht) | ht
    · have := he t ht; rw [hmark] at this; simp at this
    · have := hd.directives t ht
      simp [isDirective, hmark] at this
    · cases i with
      | true => rw [(h1 rfl).2] at ht; simp at ht
      | false =>
        obtain ⟨n, rfl⟩ := h2 rfl
        simp only [List.mem_singleton] at ht
        subst ht
        simp at hw
  | DocumentEnd i =>
    cases i with
    | true => rw [hx.1 rfl] at ht; simp at ht
    | false =>
      obtain ⟨n, rfl⟩ := hx.2 rfl
      simp only [List.mem_singleton] at ht
      subst ht
      simp at hw
  | Alias name =>
    have hx : Carry ts [.alias name] := hx
    rw [hx.1] at hpc; simp at hpc
  | Scalar n c =>
    obtain ⟨ps, tg, h1, h2, h3⟩ := hx
    have hm : Piece.tag handle suffix ∈ ps := by
      rcases h3 with h3 | h3
      · rw [h3.1] at hpc; simpa using hpc
      · rw [h3.1.1] at hpc; exact hpc
    have htg := hprops h1 hm
    rcases h2 with h2 | ⟨h2, h2'⟩
    · exact Or.inl ⟨h2.trans htg, hres (h2.trans htg)⟩
    · rw [htg] at h2'
      simp only [Option.some.injEq, Prod.mk.injEq] at h2'
      exact Or.inr ⟨h2'.1, h2'.2, h2, _, _, rfl⟩
  | SequenceStart n =>
    obtain ⟨ps, h1, h3⟩ := hx
    have htg := hprops h1 (by rw [← h3.1]; exact hpc)
    exact Or.inl ⟨htg, hres htg⟩
  | MappingStart n =>
    obtain ⟨ps, h1, h3⟩ := hx
    have htg := hprops h1 (by rw [← h3.1]; exact hpc)
    exact Or.inl ⟨htg, hres htg⟩
  | SequenceEnd =>
    have hx : Carry ts [] := hx
    rw [hx.1] at hpc; simp at hpc
  | MappingEnd =>
    have hx : Carry ts [] := hx
    rw [hx.1] at hpc; simp at hpc

/-- An undefined handle: the call that meets it fails. -/
example : ∃ es s, Yields listDrive (start
      [⟨.Token (.StreamStart .UTF8), 0⟩, ⟨.Token (.Tag (bytes! "!x!") (bytes! "t")), 0⟩,
       ⟨.Token (.Scalar (bytes! "v") .Plain), 5⟩, ⟨.Token .StreamEnd, 6⟩]) es s ∧
    es.length = 2 ∧ (Parser.nextEvent listDrive 9 s).1 = .err .UndefinedTag :=
  ⟨_, _, collect_yields 9 9 _, by decide +kernel, by decide +kernel⟩

/-! ### C07: directives -/

/-- **C07.** A call that hands out a `DocumentStart` takes some `...` tokens, the directives
`dirs` of that document and, unless the document is implicit, its `---`. The event declares exactly
`dirs`: the version is the only `%YAML` directive or 1.2, the tags are the declared ones and the
two defaults, and no handle is declared twice. Nothing of earlier documents shows up. -/
theorem C07_directives {src : σ} {es : List Event} {s s' : PS σ} {e : Event} {fuel : Nat}
    (h : Yields drive (start src) es s)
    (hn : Parser.nextEvent drive fuel s = (.ok (some e), s'))
    {d : Directives} {implicit : Bool} (he : e.data = .DocumentStart d implicit) :
    ∃ ends dirs mark, Pops drive s.tokens (ends ++ dirs ++ mark) s'.tokens ∧
      (∀ t ∈ ends, t.marker = .DocumentEnd) ∧ Declares dirs d ∧
      (implicit = true → dirs = [] ∧ mark = []) ∧
      (implicit = false → ∃ n, mark = [⟨.Token .DocumentStart, n⟩]) := by
  obtain ⟨hf, -⟩ := yields_chunks h (Parser.new_first src)
  obtain ⟨-, ts, hp, hx, -⟩ := Parser.nextEvent_tr hf hn
  rw [he] at hx
  obtain ⟨ends, dirs, mark, rfl, h1⟩ := hx
  exact ⟨ends, dirs, mark, hp, h1⟩

/-- Two documents, the second without the directives of the first. -/
example : ((collect listDrive 20 20 (start
      [⟨.Token (.StreamStart .UTF8), 0⟩, ⟨.Token (.VersionDirective 1 1), 0⟩,
       ⟨.Token (.TagDirective (bytes! "!e!") (bytes! "x:")), 9⟩, ⟨.Token .DocumentStart, 20⟩,
       ⟨.Token .DocumentEnd, 24⟩, ⟨.Token .DocumentStart, 32⟩,
       ⟨.Token (.Scalar (bytes! "v") .Plain), 36⟩, ⟨.Token .StreamEnd, 37⟩])).1.map (·.data)).filter
        (fun d => match d with | .DocumentStart .. => true | _ => false) =
    [.DocumentStart { version := ⟨1, 1⟩, tags := (bytes! "!e!", bytes! "x:") :: knownTags } false,
     .DocumentStart { version := ⟨1, 2⟩, tags := knownTags } false] := by decide +kernel

/-- **C07**, rejection. Where a document may start, if the next tokens are directives with two
`%YAML` among them, or with a `%TAG` handle repeated or equal to a default one, the call fails with
the corresponding error. -/
theorem C07_duplicates_rejected {src : σ} {es : List Event} {e : Event} {s : PS σ}
    (h : Yields drive (start src) (es ++ [e]) s)
    (he : Ev.of e.data = .streamStart ∨ Ev.of e.data = .docEnd)
    {dirs : List TokenEntry} (hd : ∀ t ∈ dirs, isDirective t = true)
    (ha : Ahead drive s.tokens dirs)
    (hdup : 2 ≤ (versions dirs).length ∨ ¬ ((knownTags ++ tagPairs dirs).map (·.1)).Nodup)
    {fuel : Nat} (hf : dirs.length ≤ fuel) :
    ∃ x s', Parser.nextEvent drive fuel s = (.err x, s') ∧
      (x = .DuplicateVersion ∧ 2 ≤ (versions dirs).length ∨
       x = .DuplicateTagDirective ∧ ¬ ((knownTags ++ tagPairs dirs).map (·.1)).Nodup) := by
  obtain ⟨q, q', -, h2, h3⟩ := run_split (v := []) (yields_run h)
  cases h3
  obtain ⟨⟨i, f, ht⟩, hdone⟩ := next_docStart h2 he
  refine Parser.nextEvent_dup hd ?_ ha hf ht hdone
  intro hfine
  rcases hdup with hv | hv
  · have := hfine.version; omega
  · exact hv hfine.tags

/-- `%TAG ! a:` after `StreamStart` meets the hypotheses. -/
example : ∃ e s, Yields listDrive (start
      [⟨.Token (.StreamStart .UTF8), 0⟩, ⟨.Token (.TagDirective (bytes! "!") (bytes! "a:")), 0⟩])
        ([] ++ [e]) s ∧ Ev.of e.data = .streamStart ∧
    Ahead listDrive s.tokens [⟨.Token (.TagDirective (bytes! "!") (bytes! "a:")), 0⟩] ∧
    ¬ ((knownTags ++ tagPairs
      [⟨.Token (.TagDirective (bytes! "!") (bytes! "a:")), 0⟩]).map (·.1)).Nodup :=
  ⟨_, _, .cons 3 rfl (.nil _), rfl, ⟨_, rfl, trivial⟩, by decide⟩

/-! ### C11: marks -/

/-- **C11.** Over a source whose tokens come in nondecreasing positions (including the one looked
at last), the marks of the events never go backwards: start ≤ end for every event, and every mark
of an event is at most every mark of a later one. -/
theorem C11_marks_monotone {src : σ}
    (hsrc : ∀ ts p, Pops drive (PeekReader.new src) ts p →
      ((ts ++ p.peeked.toList).map (·.readAt)).Pairwise (· ≤ ·))
    {es : List Event} {s : PS σ} (h : Yields drive (start src) es s) :
    (es.flatMap fun e => [e.start, e.stop]).Pairwise (· ≤ ·) := by
  obtain ⟨-, cs, hc, rfl⟩ := yields_chunks h (Parser.new_first src)
  have := (hc.marks (hsrc _ _ hc.explained.2)).1
  simpa [List.flatMap_map] using this

/-- A list of tokens with nondecreasing positions is such a source. -/
theorem listDrive_sorted {toks : List TokenEntry}
    (h : (toks.map (·.readAt)).Pairwise (· ≤ ·)) (ts : List TokenEntry)
    (p : PeekReader (List TokenEntry)) (hp : Pops listDrive (PeekReader.new toks) ts p) :
    ((ts ++ p.peeked.toList).map (·.readAt)).Pairwise (· ≤ ·) := by
  have := (listDrive_pops hp rfl).2
  simp only [listRest, PeekReader.new, Reader.new, Option.toList_none, List.nil_append] at this
  rw [← this, ← List.append_assoc, List.map_append, List.pairwise_append] at h
  exact h.1

example : ((collect listDrive 20 20 (start exampleTokens)).1.flatMap
    fun e => [e.start, e.stop]).Pairwise (· ≤ ·) :=
  C11_marks_monotone (listDrive_sorted (by decide +kernel)) (collect_yields 20 20 _)

end Yary
