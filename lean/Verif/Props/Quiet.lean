import Verif.Proof.Quiet
import Verif.Props.Panics
import Verif.Props.ReturnsRead

/-! # C80: texts over which no call panics, and so the events come to an end -/

namespace Yary

open Spec

variable {σ : Type} {drive : Drive σ} {opts : SFlags} {text : List Char}

/-- **C09**, for what the source does do and not for what it might: if none of the reader's histories has a panic, no call of the stream panics. -/
theorem C09_histories {src : σ} (hall : ∀ ops, NoPanic (runOps drive ops (PeekReader.new src)).1) {os : List (Out ParseError (Option Event))} {s : PS σ}
    (h : Calls drive (start src) os s) : .panic ∉ os := by
  have hall' : ∀ ops op, (ROp.run drive (runOps drive ops (PeekReader.new src)).2 op).1 ≠ .panic := by
    intro ops op
    refine hall (ops ++ [op]) (op, _) ?_
    rw [Client.ops_append]
    exact List.mem_append_right _ (List.mem_singleton.2 rfl)
  have key : ∀ {s s' : PS σ} {os : List (Out ParseError (Option Event))}, Calls drive s os s' → Parser.Inv s →
      (∃ ops, s.tokens = (runOps drive ops (PeekReader.new src)).2) → .panic ∉ os := by
    intro s s' os h
    induction h with
    | nil => simp
    | @cons s s' s'' o os fuel h hd t ih =>
      intro hi hs
      obtain ⟨ops, hs⟩ := hs
      have h1 := Quiet.nextEvent_quiet hall' hi hs fuel
      have h2 := calls_inv (.cons fuel h hd (.nil _)) hi
      obtain ⟨ops', h3, -⟩ := Client.nextEvent (drive := drive) fuel s
      rw [h] at h1 h3
      simp only [List.mem_cons, not_or]
      refine ⟨fun he => h1 he.symm, ih h2 ⟨ops ++ ops', ?_⟩⟩
      rw [Client.ops_append, ← hs]
      exact h3
  exact key h Parser.new_inv ⟨[], rfl⟩

/-- **C58** for streams of events over any text, after any calls: if one panics, there is a place in the text at which what is next makes the scanner
panic (`JamAhead`). -/
theorem C58_events {os : List (Out ParseError (Option Event))} {s : PS Scanner} (h : Calls (borrowDrive opts (utf8 text)) (start {}) os s)
    (hp : .panic ∈ os) : ∃ q r flow base indent m, utf8 text = q ++ r ∧ JamAhead opts.lazy flow base indent m r := by
  refine Classical.byContradiction fun hc => ?_
  refine C09_histories (fun ops => noPanic_all (fun ops op h hp => hc ?_) ops) h hp
  obtain ⟨s, s', -, ⟨q, hq⟩, -, -, hj⟩ := C58_reader h hp
  exact ⟨q, s.buf, _, _, _, _, hq, hj⟩

/-- **C58** for streams of events over ASCII: there is one of few causes in the text. -/
theorem C58_events_ascii (ascii : ∀ c ∈ text, c.toNat < 128) {os : List (Out ParseError (Option Event))} {s : PS Scanner}
    (h : Calls (borrowDrive opts (utf8 text)) (start {}) os s) (hp : .panic ∈ os) : ∃ q r base, utf8 text = q ++ r ∧ AsciiJam opts.lazy base r := by
  refine Classical.byContradiction fun hc => C09_histories (fun ops => C58_never ascii (fun q r base h hj => hc ⟨q, r, base, h, hj⟩) ops) h hp

/-- Calls of which the fifth panics. -/
example : Calls (borrowDrive {} (utf8 "a: é".toList)) (start {}) (someCalls (borrowDrive {} (utf8 "a: é".toList)) 60 5 (start {})).1
      (someCalls (borrowDrive {} (utf8 "a: é".toList)) 60 5 (start {})).2 ∧
    .panic ∈ (someCalls (borrowDrive {} (utf8 "a: é".toList)) 60 5 (start {})).1 :=
  ⟨someCalls_calls 5 (by decide +kernel), by decide +kernel⟩

/-- **C80.** If no part of an ASCII text is a cause of a panic (`AsciiJam`: a tag with `%XX` that are no UTF-8; and, if scalars are not lazy, a code that is no
character in a double-quoted scalar, a block scalar with an indentation indicator or without content), no call of a stream of events over it panics,
whatever the calls before returned. -/
theorem C80_no_panic (ascii : ∀ c ∈ text, c.toNat < 128) (hn : ∀ q r base, utf8 text = q ++ r → ¬ AsciiJam opts.lazy base r)
    {os : List (Out ParseError (Option Event))} {s : PS Scanner} (h : Calls (borrowDrive opts (utf8 text)) (start {}) os s) : .panic ∉ os :=
  C09_histories (fun ops => C58_never ascii hn ops) h

/-- **C80.** Over such a text as many calls as one likes can be made: each returns, and none panics. -/
theorem C80_calls (ascii : ∀ c ∈ text, c.toNat < 128) (hn : ∀ q r base, utf8 text = q ++ r → ¬ AsciiJam opts.lazy base r) (n : Nat) :
    ∃ os s, Calls (borrowDrive opts (utf8 text)) (start {}) os s ∧ os.length = n ∧ .panic ∉ os := by
  obtain ⟨os, s, h, hl⟩ := C79_calls (opts := opts) (text := text) (.nil _) nofun n
  have hp := C80_no_panic ascii hn h
  exact ⟨os, s, h, hl.elim id fun hl => absurd hl.1 hp, hp⟩

/-- **C80.** And iterating over the events of such a text comes to an end: after at most nine events per byte, and seven, there is `None` or an error. -/
theorem C80_ends (ascii : ∀ c ∈ text, c.toNat < 128) (hn : ∀ q r base, utf8 text = q ++ r → ¬ AsciiJam opts.lazy base r) :
    ∃ es s, Yields (borrowDrive opts (utf8 text)) (start {}) es s ∧ es.length ≤ 9 * (utf8 text).length + 7 ∧
      ∃ fuel, (Parser.nextEvent (borrowDrive opts (utf8 text)) fuel s).1 = .ok none ∨
        ∃ e, (Parser.nextEvent (borrowDrive opts (utf8 text)) fuel s).1 = .err e := by
  obtain ⟨es, s, h, hl, fuel, hd, he⟩ := C79_ends opts text
  have hp := C80_no_panic ascii hn (Later.yields_calls h (.cons fuel rfl hd (.nil _)))
  refine ⟨es, s, h, hl, fuel, ?_⟩
  cases hx : (Parser.nextEvent (borrowDrive opts (utf8 text)) fuel s).1 with
  | ok r =>
    cases r with
    | none => exact .inl rfl
    | some e => exact absurd hx (he e)
  | err e => exact .inr ⟨e, rfl⟩
  | panic => exact absurd (List.mem_append_right _ (List.mem_singleton.2 hx.symm)) hp
  | diverge => exact absurd hx hd

/-- **C80**, by characters: an ASCII text is such a text if there is no `!` and no `%` in it and, unless scalars are lazy, no `"`, `|` and `>`. -/
theorem C80_signs (ascii : ∀ c ∈ text, c.toNat < 128) (ht : '!' ∉ text ∧ '%' ∉ text) (hs : opts.lazy = false → '"' ∉ text ∧ '|' ∉ text ∧ '>' ∉ text) :
    ∀ q r base, utf8 text = q ++ r → ¬ AsciiJam opts.lazy base r := by
  intro q r base h hj
  obtain ⟨b, t, rfl, hb⟩ := jam_sign hj
  have hm : b ∈ utf8 text := by rw [h]; simp
  have key : ∀ c : Char, c.toNat < 128 → c.toNat = b → c ∈ text := fun c hc hb => mem_utf8 hc (hb ▸ hm)
  rcases hb with hb | hb | ⟨hl, hb | hb | hb⟩
  · exact ht.1 (key '!' (by decide) hb.symm)
  · exact ht.2 (key '%' (by decide) hb.symm)
  · exact (hs hl).1 (key '"' (by decide) hb.symm)
  · exact (hs hl).2.1 (key '|' (by decide) hb.symm)
  · exact (hs hl).2.2 (key '>' (by decide) hb.symm)

/-- Events and a panic are found on both sides. -/
theorem agree_panic {E : ReaderError → Prop} {es : List Event} {os' : List (Out ParseError (Option Event))}
    (h : AgreeEvents E (es.map (fun e => .ok (some e)) ++ [.panic]) os') : .panic ∈ os' := by
  induction es generalizing os' with
  | nil =>
    generalize hx : ([].map (fun e => .ok (some e)) ++ [.panic] : List (Out ParseError (Option Event))) = l at h
    cases h with
    | nil => cases hx
    | goes => cases hx; simp
    | stops => cases hx; simp
    | fails => cases hx
  | cons e es ih =>
    generalize hx : ((e :: es).map (fun e => .ok (some e)) ++ [.panic] : List (Out ParseError (Option Event))) = l at h
    cases h with
    | nil => cases hx
    | goes _ rest => cases hx; exact List.mem_cons_of_mem _ (ih rest)
    | stops ho => cases hx; exact absurd rfl (ho.1 _)
    | fails => cases hx

/-- **C58** for a source that supplies a text, or the beginning of one and then fails, in chunks of any size, if scalars are not lazy or there are no block
scalars: if a call panics after calls that returned events, there is a cause in the text. So how the text is cut into chunks is none. -/
theorem C58_read_events {size : Nat → Nat → Nat} {src : Source} {err : Option IoError} (hsize : ∀ a b, 0 < size a b) (hs : Supplies src (utf8 text) err)
    (hl : opts.lazy = false ∨ '|' ∉ text ∧ '>' ∉ text) {es : List Event} {s : PS (Owned × Scanner)} {fuel : Nat}
    (h : Yields (ownedDrive size opts) (start ({ source := src }, {})) es s) (hp : (Parser.nextEvent (ownedDrive size opts) fuel s).1 = .panic) :
    ∃ q r flow base indent m, utf8 text = q ++ r ∧ JamAhead opts.lazy flow base indent m r := by
  have hc : Calls (ownedDrive size opts) (start ({ source := src }, {})) (es.map (fun e => .ok (some e)) ++ [.panic]) _ :=
    Later.yields_calls h (.cons fuel (Prod.ext hp rfl) (by simp) (.nil _))
  obtain ⟨os', s', h1, h2⟩ : ∃ os' s', Calls (borrowDrive opts (utf8 text)) (start {}) os' s' ∧ AgreeEvents (ReadFails size (utf8 text) err)
      (es.map (fun e => .ok (some e)) ++ [.panic]) os' := by
    cases hz : opts.lazy with
    | false => exact C46_partial hsize hz hs hc
    | true => exact C46_lazy_exact_partial hsize hz (hl.resolve_left fun h => by rw [hz] at h; cases h) hs hc
  exact C58_events h1 (agree_panic h2)

/-- A surrogate in the third chunk. -/
example : ∃ s, Yields (ownedDrive (fun _ _ => 5) {}) (start ({ source := [(bytes! "- a\n- \"\\uD800\"", none)] }, {}))
      (collect (ownedDrive (fun _ _ => 5) {}) 60 4 (start ({ source := [(bytes! "- a\n- \"\\uD800\"", none)] }, {}))).1 s ∧
    (Parser.nextEvent (ownedDrive (fun _ _ => 5) {}) 60
      (collect (ownedDrive (fun _ _ => 5) {}) 60 4 (start ({ source := [(bytes! "- a\n- \"\\uD800\"", none)] }, {}))).2).1 = .panic :=
  ⟨_, collect_yields 60 4 _, by decide +kernel⟩

/-- **C80**, for a source that supplies such a text, or the beginning of one and then fails, in chunks of any size, if scalars are not lazy or there are no block
scalars: iterating over its events comes to an end, with `None` or an error. -/
theorem C80_read_ends {size : Nat → Nat → Nat} {src : Source} {err : Option IoError} (hsize : ∀ a b, 0 < size a b) (hs : Supplies src (utf8 text) err)
    (ascii : ∀ c ∈ text, c.toNat < 128) (hn : ∀ q r base, utf8 text = q ++ r → ¬ AsciiJam opts.lazy base r)
    (hl : opts.lazy = false ∨ '|' ∉ text ∧ '>' ∉ text) :
    ∃ es s, Yields (ownedDrive size opts) (start ({ source := src }, {})) es s ∧ es.length ≤ 9 * (bytesOf src).length + 7 ∧
      ∃ fuel, (Parser.nextEvent (ownedDrive size opts) fuel s).1 = .ok none ∨ ∃ e, (Parser.nextEvent (ownedDrive size opts) fuel s).1 = .err e := by
  obtain ⟨es, s, h, hb, fuel, hd, he⟩ := C79_read_ends hsize opts src
  refine ⟨es, s, h, hb, fuel, ?_⟩
  have hc : Calls (ownedDrive size opts) (start ({ source := src }, {})) _ _ := Later.yields_calls h (.cons fuel rfl hd (.nil _))
  cases hx : (Parser.nextEvent (ownedDrive size opts) fuel s).1 with
  | ok r =>
    cases r with
    | none => exact .inl rfl
    | some e => exact absurd hx (he e)
  | err e => exact .inr ⟨e, rfl⟩
  | panic =>
    rw [show (Parser.nextEventLoop (ownedDrive size opts) fuel fuel s).1 = .panic from hx] at hc
    obtain ⟨os', s', h1, h2⟩ : ∃ os' s', Calls (borrowDrive opts (utf8 text)) (start {}) os' s' ∧ AgreeEvents (ReadFails size (utf8 text) err)
        (es.map (fun e => .ok (some e)) ++ [.panic]) os' := by
      cases hz : opts.lazy with
      | false => exact C46_partial hsize hz hs hc
      | true => exact C46_lazy_exact_partial hsize hz (hl.resolve_left fun h => by rw [hz] at h; cases h) hs hc
    exact absurd (agree_panic h2) (C80_no_panic ascii hn h1)
  | diverge => exact absurd hx hd

/-! ### Examples -/

/-- A text without these characters: however many calls are made, none panics. -/
example (n : Nat) : ∃ os s, Calls (borrowDrive {} (utf8 "- a: 'b'\n- [c, {d: &e f}]\n".toList)) (start {}) os s ∧ os.length = n ∧ .panic ∉ os :=
  C80_calls (by decide +kernel) (C80_signs (by decide +kernel) (by decide +kernel) fun _ => by decide +kernel) n

/-- A text with errors and with lazy scalars of all kinds. -/
example (n : Nat) : ∃ os s, Calls (borrowDrive ⟨false, true⟩ (utf8 "- |1\n- \"\\uD800\"\n]".toList)) (start {}) os s ∧ os.length = n ∧ .panic ∉ os :=
  C80_calls (by decide +kernel) (C80_signs (by decide +kernel) (by decide +kernel) (by decide +kernel)) n

/-- Without laziness the first of its scalars makes a call panic. -/
example : .panic ∈ (someCalls (borrowDrive {} (utf8 "- |1\n- \"\\uD800\"\n]".toList)) 60 5 (start {})).1 := by decide +kernel

/-- A source that fails after such a text, in chunks of three bytes. -/
example : ∃ es s, Yields (ownedDrive (fun _ _ => 3) {}) (start ({ source := [(bytes! "- a: 'b'\n- [c", some ⟨7, .Other 5⟩)] }, {})) es s ∧
      es.length ≤ 9 * (bytesOf [(bytes! "- a: 'b'\n- [c", some ⟨7, .Other 5⟩)]).length + 7 ∧
      ∃ fuel, (Parser.nextEvent (ownedDrive (fun _ _ => 3) {}) fuel s).1 = .ok none ∨ ∃ e, (Parser.nextEvent (ownedDrive (fun _ _ => 3) {}) fuel s).1 = .err e :=
  C80_read_ends (text := "- a: 'b'\n- [c".toList) (fun _ _ => by decide) (.part (bytes! "- a: 'b'\n- [c") [] _ _) (by decide +kernel)
    (C80_signs (by decide +kernel) (by decide +kernel) fun _ => by decide +kernel) (.inl rfl)

end Yary
