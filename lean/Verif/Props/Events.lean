import Verif.Model.Events
import Verif.Spec.Events
import Verif.Proof.Sim
import Verif.Proof.Count
import Verif.Proof.Scan.Cost
import Verif.Props.Chunks
import Verif.Props.Parser
import Verif.Props.Lazy

/-! # Event streams: C46 to C51 -/

namespace Yary

open Spec

variable {σ : Type} {drive : Drive σ} {text : List Char} {opts : SFlags} {size : Nat → Nat → Nat} {src : Source} {err : Option IoError}

def endsCheck : List (Out PublicError (Option Event)) → Bool
  | [] => false
  | [.ok none] => true
  | .ok (some _) :: os => endsCheck os
  | _ => false

theorem ends_of_check {os : List (Out PublicError (Option Event))} (h : endsCheck os = true) : RunsOut os := by
  fun_induction endsCheck os with
  | case1 => cases h
  | case2 => exact ⟨[], rfl⟩
  | case3 e os ih =>
    obtain ⟨es, h1⟩ := ih h
    exact ⟨e :: es, by rw [h1]; rfl⟩
  | case4 => cases h


/-! ### C46: events and chunks -/

/-- **C46**, for scalars that are not lazy: whatever the size of the chunks, the calls on a stream that reads from a source return what
the calls on a stream over the whole text return, until the source fails in the same way on both sides, or reading fails. -/
theorem C46_partial (hsize : ∀ a b, 0 < size a b) (hl : opts.lazy = false) (hs : Supplies src (utf8 text) err)
    {os : List (Out ParseError (Option Event))} {s : PS (Owned × Scanner)}
    (h : Calls (ownedDrive size opts) (start ({ source := src }, {})) os s) :
    ∃ os' s', Calls (borrowDrive opts (utf8 text)) (start {}) os' s' ∧ AgreeEvents (ReadFails size (utf8 text) err) os os' :=
  Sim.calls_agree (Sim.tied_agree (E := ReadFails size (utf8 text) err)) h rfl fun ops => C21_partial hsize hl hs ops

/-- **C46**, for ASCII texts and scalars that are not lazy: both return the same, up to and including the first failure of the source. -/
theorem C46_ascii_partial (hsize : ∀ a b, 0 < size a b) (hl : opts.lazy = false) (ascii : ∀ c ∈ text, c.toNat < 128)
    {os : List (Out ParseError (Option Event))} {s : PS (Owned × Scanner)}
    (h : Calls (ownedDrive size opts) (start ({ source := [(utf8 text, none)] }, {})) os s) :
    ∃ os' s', Calls (borrowDrive opts (utf8 text)) (start {}) os' s' ∧ upToSource os' = upToSource os :=
  Sim.calls_same Sim.tied_same h rfl fun ops => C21_ascii_partial hsize hl ascii ops

/-- **C46**, for texts of up to 8 KiB, the least the code reads at once, and scalars that are not lazy: the same. -/
theorem C46_short_partial (hl : opts.lazy = false) (hn : (utf8 text).length ≤ 8192)
    {os : List (Out ParseError (Option Event))} {s : PS (Owned × Scanner)}
    (h : Calls (ownedDrive chunkSize opts) (start ({ source := [(utf8 text, none)] }, {})) os s) :
    ∃ os' s', Calls (borrowDrive opts (utf8 text)) (start {}) os' s' ∧ upToSource os' = upToSource os :=
  Sim.calls_same Sim.tied_same h rfl fun ops => C21_short_partial hl hn ops

/-- In chunks of five bytes, with an error of the order of tokens on the way and one of the source at the end. -/
example : let t := "- !x!a b\n- 'c': *e\n- [@".toList
    let r := nexts (ownedDrive (fun _ _ => 5) {}) 40 9 (start ({ source := [(utf8 t, none)] }, {}))
    (∀ c ∈ t, c.toNat < 128) ∧ r.1 = (nexts (borrowDrive {} (utf8 t)) 40 9 (start {})).1 ∧
      r.1.map Out.void = List.replicate 3 (.ok ()) ++ .err (.new (.Code .UndefinedTag)) :: List.replicate 4 (.ok ()) ++ [.err (.new (.Code .UnknownDelimiter))] := by
  decide +kernel

/-- **C46**, for lazy scalars in texts without the characters that begin block scalars: the calls on a stream that reads from a source return
what the calls on a stream over the whole text return, as in `C46_partial`, so that the scalars evaluate to the same. -/
theorem C46_lazy_exact_partial (hsize : ∀ a b, 0 < size a b) (hl : opts.lazy = true) (hb : '|' ∉ text ∧ '>' ∉ text)
    (hs : Supplies src (utf8 text) err) {os : List (Out ParseError (Option Event))} {s : PS (Owned × Scanner)}
    (h : Calls (ownedDrive size opts) (start ({ source := src }, {})) os s) :
    ∃ os' s', Calls (borrowDrive opts (utf8 text)) (start {}) os' s' ∧ AgreeEvents (ReadFails size (utf8 text) err) os os' :=
  Sim.calls_agree (Sim.tied_agree (E := ReadFails size (utf8 text) err)) h rfl fun ops => C21_lazy_exact_partial hsize hl hb hs ops

/-- In chunks of five bytes, with an error of the order of tokens on the way; all scalars are lazy. -/
example : let t := "- !x!a b\n- 'c': \"e\"\n- [f]\n".toList
    let r := nexts (ownedDrive (fun _ _ => 5) ⟨false, true⟩) 40 12 (start ({ source := [(utf8 t, none)] }, {}))
    '|' ∉ t ∧ '>' ∉ t ∧ r.1 = (nexts (borrowDrive ⟨false, true⟩ (utf8 t)) 40 12 (start {})).1 ∧
      r.1.map Out.void = List.replicate 3 (.ok ()) ++ .err (.new (.Code .UndefinedTag)) :: List.replicate 8 (.ok ()) := by
  decide +kernel

theorem tracks_of_agree {Q : TokenEntry → TokenEntry → Prop} {E : ReaderError → Prop}
    {h h' : List (ROp × Out ReaderError (Option TokenEntry))} (ha : AgreeBy Q E h h') : Tracks Q h h' := by
  induction ha with
  | nil => exact .nil
  | token ht _ ih => exact .token ht ih
  | none _ ih => exact .none ih
  | same hx => exact .fails hx
  | fails he => exact .fails fun t h => by cases h

theorem later_entries {e e' : TokenEntry} (h : SameLater e e') : Sim.Entries (fun c c' => c = c' ∨ LaterScalar c c') e e' := by
  rcases h with rfl | ⟨h1, o, s, st, i, f, h2, h3, h4⟩
  · exact ⟨rfl, .same _⟩
  · refine ⟨h1, ?_⟩
    rw [h2, h3] at h4 ⊢
    exact .scalar rfl rfl (.inr ⟨o, s, st, i, f, rfl, rfl, h4⟩)

/-- **C46**, for lazy scalars in texts without a carriage return: the calls return the same events and errors until the source fails, except
that a block scalar may have been told that the text goes on, so that evaluating it may ask for more text. -/
theorem C46_lazy_partial (hsize : ∀ a b, 0 < size a b) (hl : opts.lazy = true) (hr : '\r' ∉ text)
    (hs : Supplies src (utf8 text) err) {os : List (Out ParseError (Option Event))} {s : PS (Owned × Scanner)}
    (h : Calls (ownedDrive size opts) (start ({ source := src }, {})) os s) :
    ∃ os' s', Calls (borrowDrive opts (utf8 text)) (start {}) os' s' ∧ Follows LaterScalar os os' := by
  obtain ⟨os', s', h1, h2⟩ := Sim.calls_follow (C := fun c c' => c = c' ∨ LaterScalar c c') (fun _ => .inl rfl)
    (Sim.tied_follow (d' := borrowDrive opts (utf8 text)) (R := SameLater) fun _ _ h => later_entries h) h (s' := start {}) rfl
    fun ops => tracks_of_agree (C21_lazy_partial hsize hl hr hs ops)
  exact ⟨os', s', h1, Sim.follows_mono (fun _ _ h => Sim.sameEvent_or h) h2⟩

/-- The calls on a source, in chunks of five bytes, return events until the stream ends, and differ from those on the whole text. -/
example : let t := "a: 'b\n c'\nd: |\n  e\nf: [g]\n".toList
    '\r' ∉ t ∧ RunsOut (nexts (ownedDrive (fun _ _ => 5) ⟨false, true⟩) 60 15 (start ({ source := [(utf8 t, none)] }, {}))).1 ∧
    (nexts (ownedDrive (fun _ _ => 5) ⟨false, true⟩) 60 15 (start ({ source := [(utf8 t, none)] }, {}))).1 ≠
      (nexts (borrowDrive ⟨false, true⟩ (utf8 t)) 60 15 (start {})).1 :=
  ⟨by decide +kernel, ends_of_check (by decide +kernel), by decide +kernel⟩

/-! ### C47: lazy and eager event streams -/

/-- **C47**, for texts without `\\\\"`, and without other line breaks than line feeds and carriage returns: a stream of lazy scalars returns what
the stream of evaluated scalars returns, and the scalars evaluate to the same, up to a final line break of block scalars. -/
theorem C47_partial (hE : NoEscapedBackslash text) (hB : PlainBreaks text) (x y : Bool)
    {os : List (Out ParseError (Option Event))} {s : PS Scanner} (h : Calls (borrowDrive ⟨x, false⟩ (utf8 text)) (start {}) os s) :
    ∃ os' s', Calls (borrowDrive ⟨y, true⟩ (utf8 text)) (start {}) os' s' ∧ Follows CloseScalar os os' := by
  obtain ⟨os', s', h1, h2⟩ := Sim.calls_follow (C := fun c c' => c = c' ∨ CloseScalar c c') (fun _ => .inl rfl)
    (Sim.tied_follow (d' := borrowDrive ⟨y, true⟩ (utf8 text)) (R := CloseValue) fun _ _ h => Sim.close_entries h) h (s' := start {}) rfl fun ops => C20_partial text hE hB x y ops
  exact ⟨os', s', h1, Sim.follows_mono (fun _ _ h => Sim.sameEvent_or h) h2⟩

/-- **C47**, if in addition every `|` and `>` is followed by `+` or `-`: they evaluate to the same. -/
theorem C47_chomped_partial (hE : NoEscapedBackslash text) (hB : PlainBreaks text) (hC : Chomped text) (x y : Bool)
    {os : List (Out ParseError (Option Event))} {s : PS Scanner} (h : Calls (borrowDrive ⟨x, false⟩ (utf8 text)) (start {}) os s) :
    ∃ os' s', Calls (borrowDrive ⟨y, true⟩ (utf8 text)) (start {}) os' s' ∧ Follows SameScalar os os' := by
  obtain ⟨os', s', h1, h2⟩ := Sim.calls_follow (C := fun c c' => c = c' ∨ SameScalar c c') (fun _ => .inl rfl)
    (Sim.tied_follow (d' := borrowDrive ⟨y, true⟩ (utf8 text)) (R := SameValue) fun _ _ h => Sim.same_entries h) h (s' := start {}) rfl fun ops => C20_chomped_partial text hE hB hC x y ops
  exact ⟨os', s', h1, Sim.follows_mono (fun _ _ h => Sim.sameEvent_or h) h2⟩

/-- The calls on a text with scalars of every style return events until the stream ends. -/
example : RunsOut (nexts (borrowDrive ⟨false, false⟩ (utf8 lazyText)) 60 17 (start {})).1 ∧
    (nexts (borrowDrive ⟨false, true⟩ (utf8 lazyText)) 60 17 (start {})).1 ≠ (nexts (borrowDrive ⟨false, false⟩ (utf8 lazyText)) 60 17 (start {})).1 ∧
    NoEscapedBackslash lazyText ∧ PlainBreaks lazyText ∧ Chomped lazyText :=
  ⟨ends_of_check (by decide +kernel), by decide +kernel, lazyText_meets⟩

/-! ### C48: a source that has been used -/

/-- **C48** is false of texts: a second stream on the same source hands out the same events, and no error. -/
theorem C48_false_text : ∃ src : BorrowReader,
    let first := nexts (Events.textDrive src 0) 50 9 Events.ofText
    let second := nexts (Events.textDrive src 0) 50 9 Events.ofText
    RunsOut first.1 ∧ RunsOut second.1 ∧ scalarsRead first.1 = [bytes! "a", bytes! "b"] ∧ second.1 = first.1 :=
  ⟨fromUtf8 "[a, b]\n".toList, ends_of_check (by decide +kernel), ends_of_check (by decide +kernel), by decide +kernel, rfl⟩

/-- **C48** is false of sources that are read: a second stream on the same source hands out events, which are not those of the text, and
no error. -/
theorem C48_false_read : ∃ src : Owned,
    let first := nexts (Events.readDrive 0) 50 9 (Events.ofRead src)
    let second := nexts (Events.readDrive 0) 50 6 (Events.ofRead (Events.sourceAfter first.2))
    RunsOut first.1 ∧ scalarsRead first.1 = [bytes! "a", bytes! "b"] ∧ RunsOut second.1 ∧ scalarsRead second.1 = [bytes! "b"] :=
  ⟨fromRead [(bytes! "- a\n- b\n", none)], ends_of_check (by decide +kernel), by decide +kernel, ends_of_check (by decide +kernel), by decide +kernel⟩

/-! ### C49: tokens -/

/-- **C49.** Calls that all succeed hand out at most three tokens per byte of the text, and two. -/
theorem C49_tokens_linear {ops : List ROp} (h : AllOk (history opts text ops)) :
    (handed (history opts text ops)).length ≤ 3 * (utf8 text).length + 2 := Cost.handed_le h

/-- It is attained. -/
example : AllOk (history {} ":".toList (List.replicate 6 .pop)) ∧
    (handed (history {} ":".toList (List.replicate 6 .pop))).length = 3 * (utf8 ":".toList).length + 2 :=
  ⟨allOk_of_decide (by decide +kernel), by decide +kernel⟩

/-! ### C50: events -/

/-- **C50.** The events of a whole stream are at most twice as many as the tokens they were made from. -/
theorem C50_stream {src : σ} {s : PS σ} {es : List Event} (h : Yields drive (start src) es s) (hf : Finished drive s) :
    ∃ ts, Pops drive (start src).tokens ts s.tokens ∧ es.length ≤ 2 * ts.length := Count.finished_le h hf

/-- **C50.** The events handed out so far are at most three times as many as the tokens taken, and one. -/
theorem C50_prefix {src : σ} {s : PS σ} {es : List Event} (h : Yields drive (start src) es s) :
    ∃ ts, Pops drive (start src).tokens ts s.tokens ∧ es.length ≤ 3 * ts.length + 1 := Count.yields_le h

theorem pops_le {q : PeekReader Scanner} {ts : List TokenEntry} (h : Pops (borrowDrive opts (utf8 text)) (start {}).tokens ts q) :
    ts.length ≤ 3 * (utf8 text).length + 2 := by
  obtain ⟨ops, h1, rfl, -⟩ := Count.pops_ops h
  exact C49_tokens_linear (ops := ops) h1

/-- **C50.** A text has at most six events per byte, and four. -/
theorem C50_text {s : PS Scanner} {es : List Event} (h : Yields (borrowDrive opts (utf8 text)) (start {}) es s)
    (hf : Finished (borrowDrive opts (utf8 text)) s) : es.length ≤ 6 * (utf8 text).length + 4 := by
  obtain ⟨ts, h1, h2⟩ := C50_stream h hf
  have := pops_le h1
  omega

theorem calls_events {s s' : PS σ} {os : List (Out ParseError (Option Event))} (h : Calls drive s os s') (hev : ∀ o ∈ os, ∃ e, o = .ok (some e)) :
    ∃ es, Yields drive s es s' ∧ es.length = os.length := by
  induction h with
  | nil s => exact ⟨[], .nil _, rfl⟩
  | cons fuel h hd t ih =>
    obtain ⟨e, rfl⟩ := hev _ (List.mem_cons_self ..)
    obtain ⟨es, h1, h2⟩ := ih fun o ho => hev o (List.mem_cons_of_mem _ ho)
    exact ⟨e :: es, .cons fuel h h1, by simp [h2]⟩

/-- **C50.** However the text goes on, after at most nine events per byte, and seven, a call returns `None`, an error, or panics. -/
theorem C50_ends {s : PS Scanner} {os : List (Out ParseError (Option Event))} (h : Calls (borrowDrive opts (utf8 text)) (start {}) os s)
    (hn : 9 * (utf8 text).length + 7 < os.length) : ∃ o ∈ os, ∀ e, o ≠ .ok (some e) := by
  by_cases hev : ∀ o ∈ os, ∃ e, o = .ok (some e)
  · obtain ⟨es, h1, h2⟩ := calls_events h hev
    obtain ⟨ts, h3, h4⟩ := C50_prefix h1
    have := pops_le h3
    omega
  · simp only [not_forall] at hev
    obtain ⟨o, ho, hev⟩ := hev
    exact ⟨o, ho, fun e he => hev ⟨e, he⟩⟩

/-- Both are attained: by `[?]`, with ten events for five tokens. -/
example : ∃ es s, Yields (borrowDrive {} (utf8 "[?]".toList)) (start {}) es s ∧ Finished (borrowDrive {} (utf8 "[?]".toList)) s ∧
    es.length = 10 ∧ (handed (history {} "[?]".toList (List.replicate 6 .pop))).length = 5 :=
  ⟨_, _, collect_yields 30 20 _, finished_of 30 (by decide +kernel), by decide +kernel, by decide +kernel⟩

deriving instance DecidableEq for QueueEntry, Queue, Reader, PeekReader, PS

/-- A call that fails and changes nothing fails again. -/
theorem calls_again {s : PS σ} {e : ParseError} {fuel : Nat} (h : Parser.nextEvent drive fuel s = (.err e, s)) :
    ∀ n, Calls drive s (List.replicate n (.err e)) s
  | 0 => .nil _
  | n + 1 => .cons fuel h (by intro h; cases h) (calls_again h n)

theorem calls_forever {s : PS σ} {e : ParseError} (fuel : Nat) (h : (Parser.nextEvent drive fuel s).1 = .err e)
    (h1 : Parser.nextEvent drive fuel (Parser.nextEvent drive fuel s).2 = (.err e, (Parser.nextEvent drive fuel s).2)) (n : Nat) :
    ∃ s', Calls drive s (List.replicate n (.err e)) s' := by
  cases n with
  | zero => exact ⟨_, .nil _⟩
  | succ n => exact ⟨_, .cons fuel (Prod.ext h rfl) (by intro h; cases h) (calls_again h1 n)⟩

/-- **C50** is false after errors: there are texts on which an error is returned again and again, so that a consumer that only
skips errors, as in the documentation, never ends. -/
theorem C50_false : ∃ text : List Char, ∃ es s, Yields (borrowDrive {} (utf8 text)) (start {}) es s ∧ es.length = 4 ∧
    ∀ n, ∃ s', Calls (borrowDrive {} (utf8 text)) s (List.replicate n (.err .MissingFlowSequenceEntryOrEnd)) s' :=
  ⟨"[a".toList, _, _, collect_yields 30 20 _, by decide +kernel, calls_forever 30 (by decide +kernel) (by decide +kernel)⟩

/-- Likewise for errors of the scanner. -/
theorem C50_false_scan : ∃ text : List Char, ∃ es s, Yields (borrowDrive {} (utf8 text)) (start {}) es s ∧ es.length = 1 ∧
    ∀ n, Calls (borrowDrive {} (utf8 text)) s (List.replicate n (.err (.Scanner .UnknownDirective))) s :=
  ⟨"%FOO".toList, _, _, collect_yields 30 20 _, by decide +kernel, calls_again (fuel := 30) (by decide +kernel)⟩

/-! ### C51: bytes -/

/-- **C51.** Bytes are a source exactly if they are the UTF-8 encoding of a text, and then they are the source of that text. -/
theorem C51_bytes (bytes : Str) (r : BorrowReader) : tryFromBytes bytes = .ok r ↔ ∃ text : List Char, utf8 text = bytes ∧ r = fromUtf8 text := by
  unfold tryFromBytes fromUtf8
  split
  · next h =>
    obtain ⟨text, ht⟩ := (validUtf8_iff _).1 h
    constructor
    · rintro ⟨⟩
      exact ⟨text, ht.symm, by rw [ht]⟩
    · rintro ⟨text, rfl, rfl⟩
      rfl
  · next h =>
    constructor
    · intro h; cases h
    · rintro ⟨text, rfl, -⟩
      exact absurd ((validUtf8_iff _).2 ⟨text, rfl⟩) h

/-- **C51.** Otherwise the error is one of the source. -/
theorem C51_error (bytes : Str) : (∃ r, tryFromBytes bytes = .ok r) ∨ ∃ e e', tryFromBytes bytes = .err e ∧ e.kind = .Source (.UTF8 e') := by
  unfold tryFromBytes
  split
  · exact .inl ⟨_, rfl⟩
  · exact .inr ⟨_, _, rfl, rfl⟩

example : tryFromBytes (utf8 "- é\n".toList) = .ok (fromUtf8 "- é\n".toList) ∧ tryFromBytes [0x2D, 0xC3] = .err (.new (.Source (.UTF8 {}))) ∧
    tryFromBytes [0xED, 0xA0, 0x80] = .err (.new (.Source (.UTF8 {}))) := by decide +kernel

end Yary
