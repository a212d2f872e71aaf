import Verif.Proof.Moved.Next
import Verif.Proof.Scan.Faults

/-! # Nothing but white space after the end of a document -/

namespace Yary.Moved

open Spec PM

variable {opts : SFlags}

theorem so_ok {σ ε α β : Type} {m : SO σ ε α} {f : α → SO σ ε β} {s s1 : σ} {a : α} (h : m s = (.ok a, s1)) : (m >>= f) s = f a s1 := by
  simp only [bind, SO.bind, h]

theorem so_panic {σ ε α β : Type} {m : SO σ ε α} {f : α → SO σ ε β} {s s1 : σ} (h : m s = (.panic, s1)) : (m >>= f) s = (.panic, s1) := by
  simp only [bind, SO.bind, h]

theorem so_diverge {σ ε α β : Type} {m : SO σ ε α} {f : α → SO σ ε β} {s s1 : σ} (h : m s = (.diverge, s1)) : (m >>= f) s = (.diverge, s1) := by
  simp only [bind, SO.bind, h]

theorem scan_get {α : Type} {f : SS → Scan α} {s : SS} : (Scan.get >>= f) s = f s s := rfl

theorem unroll_none {s : SS} (hi : s.sc.context.indents = []) (c : Option Nat) : Scan.unrollIndent c s = (.ok (), s) := by
  obtain ⟨⟨o, st, a, m, k, ⟨f, i, is, sd⟩⟩, b, ou⟩ := s
  dsimp only at hi
  subst hi
  simp only [Scan.unrollIndent, SO.modify, Context.indentDecrement, popLoop]
  split <;> simp

/-- Nothing is open. -/
theorem settle_none {s : SS} (hk : s.sc.key = none) (hi : s.sc.context.indents = []) : settle s = (.ok (), s) := by
  unfold settle
  rw [so_ok (a := ()) (s1 := s) (by unfold Scan.expireKey; rw [so_ok (show Scan.get s = (.ok s, s) from rfl), hk]; rfl),
    so_ok (show Scan.get s = (.ok s, s) from rfl)]
  rw [so_ok (unroll_none hi _)]
  simp only [Scan.popZeroIndent, SO.modify, hi]

/-- The step of the scanner when only white space is left and no collection is open. -/
theorem step_blank (hx : opts.extendable = false) {sc : Scanner} {R : Str} {n : Nat} (hst : sc.state = .Stream) (hk : sc.key = none)
    (hi : sc.context.indents = []) (hR : Skips true R n []) :
    (¬ Ascii R ∧ (Scan.scanNextToken opts ⟨sc, R, []⟩).1 = .panic) ∨
      ∃ sc', Scan.scanNextToken opts ⟨sc, R, []⟩ = (.ok (), ⟨sc', [], [⟨.Token .StreamEnd, sc.stats.read + R.length⟩]⟩) ∧ sc'.state = .Done := by
  have hf := (eatWs_faults (opts := opts) (c := ⟨R, {}⟩) (comments := true) (F := fun _ => False)).2
  have hsat := eatWs_sat (P := ¬ Ascii R) (opts := opts) (comments := true) (c := ⟨R, {}⟩) (Classical.em (Ascii R)).symm
  have hws := eatWhitespace_eq (opts := opts) (s := ⟨sc, R, []⟩)
  dsimp only at hws
  unfold Scan.scanNextToken
  rw [so_ok (show Scan.get (⟨sc, R, []⟩ : SS) = (.ok ⟨sc, R, []⟩, ⟨sc, R, []⟩) from rfl), if_neg (by simp [hst])]
  change (_ ∧ (((Scan.eatWhitespace opts >>= fun _ => settle) >>= fun _ => Scan.fetchNext opts) ⟨sc, R, []⟩).1 = _) ∨
    ∃ sc', ((Scan.eatWhitespace opts >>= fun _ => settle) >>= fun _ => Scan.fetchNext opts) ⟨sc, R, []⟩ = _ ∧ _
  generalize hc : eatWs opts true ⟨R, {}⟩ = x at hf hws hsat
  cases x with
  | err e =>
    rcases hf e rfl with ⟨-, h⟩ | h
    · rw [hx] at h; cases h
    · cases h
  | panic => exact .inl ⟨hsat, by rw [so_panic (so_panic hws)]⟩
  | diverge => exact hsat.elim
  | ok c =>
    right
    obtain ⟨n', p, h1, h2, h3, -⟩ := C14_skips hc
    obtain ⟨-, hb⟩ := hR.unique h1
    obtain ⟨cb, cs⟩ := c
    dsimp only at hb h2 h3 hws
    subst hb
    rw [List.append_nil] at h2
    subst h2
    have hbd : isBoundary R (R.length - ([] : Str).length) = true := by simp [isBoundary]
    simp only [Scan.commit, hbd, ↓reduceIte] at hws
    have hcs : (sc.stats.add cs).read = sc.stats.read + R.length := by
      rw [h3]
      simp [MStats.add, MStats.update, posAfter]
    have hset := settle_none (s := ⟨{ sc with stats := sc.stats.add cs, simpleKeyAllowed := if cs.lines ≠ 0 then true else sc.simpleKeyAllowed }, [], []⟩) hk hi
    rw [so_ok ((so_ok hws).trans hset)]
    refine ⟨{ sc with state := .Done, key := none, stats := sc.stats.add cs, simpleKeyAllowed := if cs.lines ≠ 0 then true else sc.simpleKeyAllowed }, ?_, rfl⟩
    rw [← hcs]
    unfold Scan.fetchNext Scan.fetchStreamEnd
    rw [scan_get, if_pos (by simp), scan_get,
      if_neg (by simp [hst]), if_pos (by simp), so_ok (unroll_none hi _)]
    unfold Scan.removeSavedKey Scan.takeKey
    simp only [bind, SO.bind, Scan.get, SO.get, Scan.upd, SO.modify, pure, SO.pure, Scan.push, Scan.enqueue, hk, List.nil_append]

/-- The source then hands out the end of the stream. -/
theorem drive_blank {base : Str} {sc : Scanner} {n : Nat} (hb : isBoundary base sc.offset = true) (hst : sc.state = .Stream) (hk : sc.key = none)
    (hi : sc.context.indents = []) (hR : Skips true (base.drop sc.offset) n []) :
    (¬ Ascii (base.drop sc.offset) ∧ (borrowDrive opts base sc).1 = .panic) ∨
      ∃ sc', borrowDrive opts base sc = (.ok (), [⟨.Token .StreamEnd, sc.stats.read + (base.drop sc.offset).length⟩], sc') := by
  have h := step_blank (opts := { opts with extendable := false }) rfl hst hk hi hR
  unfold borrowDrive
  have hl : scanTokens { opts with extendable := false } base sc =
      endTurn { opts with extendable := false } base (base.length + 2) (Scan.scanNextToken { opts with extendable := false } ⟨sc, base.drop sc.offset, []⟩) := by
    show scanLoop _ _ (base.length + 2 + 1) _ _ = _
    rw [loop_turn, if_pos (by simp [hst]), if_pos hb]
  rw [hl]
  generalize Scan.scanNextToken { opts with extendable := false } ⟨sc, base.drop sc.offset, []⟩ = x at h
  obtain ⟨o, s⟩ := x
  rcases h with ⟨ha, h⟩ | ⟨sc', h, hd⟩
  · cases h; exact .inl ⟨ha, rfl⟩
  · cases h
    right
    refine ⟨{ sc' with offset := base.length - 0 }, ?_⟩
    have : endTurn { opts with extendable := false } base (base.length + 2)
        (.ok (), (⟨sc', [], [⟨.Token .StreamEnd, sc.stats.read + (base.drop sc.offset).length⟩]⟩ : SS)) =
        (.ok (), { sc' with offset := base.length - 0 }, [⟨.Token .StreamEnd, sc.stats.read + (base.drop sc.offset).length⟩]) := by
      show scanLoop _ _ (base.length + 1 + 1) _ _ = _
      rw [loop_turn, if_neg (by simp [hd])]
      rfl
    rw [this]

/-- So a reader that waits for it does. -/
theorem peek_blank {base : Str} {p : PeekReader Scanner} {i n : Nat} (hp : p.peeked = none) (hq : p.reader.queue = ⟨[], i⟩) (he : p.reader.exhausted = false)
    (hb : isBoundary base p.reader.src.offset = true) (hst : p.reader.src.state = .Stream) (hk : p.reader.src.key = none)
    (hi : p.reader.src.context.indents = []) (hR : Skips true (base.drop p.reader.src.offset) n []) :
    (¬ Ascii (base.drop p.reader.src.offset) ∧ (p.peek (borrowDrive opts base)).1 = .panic) ∨
      ∃ q, p.peek (borrowDrive opts base) = (.ok (some ⟨.Token .StreamEnd, p.reader.src.stats.read + (base.drop p.reader.src.offset).length⟩), q) ∧
        q.peeked = some ⟨.Token .StreamEnd, p.reader.src.stats.read + (base.drop p.reader.src.offset).length⟩ := by
  obtain ⟨pk, ⟨sc, q, ex⟩⟩ := p
  dsimp only at hp hq he hb hst hk hi hR ⊢
  subst hp hq he
  have h := drive_blank (opts := opts) hb hst hk hi hR
  unfold PeekReader.peek PeekReader.takeNext Reader.scanTokens
  generalize borrowDrive opts base sc = x at h
  obtain ⟨o, l, sc'⟩ := x
  rcases h with ⟨ha, h⟩ | ⟨sc', h⟩
  · dsimp only at h; subst h; left; exact ⟨ha, rfl⟩
  · cases h
    right
    exact ⟨_, rfl, rfl⟩

/-- The reader when it handed out the end of a document, whatever was before. -/
theorem reader_past {base : Str} {p q : PeekReader Scanner} {ts toks' : List TokenEntry} {e : TokenEntry} (hv : validUtf8 base = true)
    (h0 : Tidy [] ⟨{}, base, []⟩) (ht : Pops (borrowDrive opts base) (PeekReader.new {}) ts p) (hp : p.pop (borrowDrive opts base) = (.ok (some e), q))
    (he : e.wrap = .Token .DocumentEnd) (htoks' : Pops (borrowDrive opts base) (PeekReader.new {}) toks' q)
    (hf : (toks'.map TokenEntry.marker).countP isFlowStart = (toks'.map TokenEntry.marker).countP isFlowEnd) :
    isBoundary base q.reader.src.offset = true ∧ q.reader.src.state = .Stream ∧ q.reader.src.key = none ∧ q.reader.src.context.indents = [] ∧
      q.peeked = none ∧ (∃ i, q.reader.queue = ⟨[], i⟩) ∧ q.reader.exhausted = false ∧ e.readAt = q.reader.src.stats.read := by
  have hH := (Having.pops hv ht (Having.start hv h0)).pop hv hp
  have hG := Having.pops hv htoks' (Having.start hv h0)
  rw [List.nil_append] at hH hG
  obtain ⟨q', h1, rfl⟩ := PeekReader.peek_of_pop hp
  have hpk : q'.peeked = some e := (peek_waits (Having.pops hv ht (Having.start hv h0)).rep h1).1
  have hw : waiting { q' with peeked := none } = [] := by
    have hq := (Having.pops hv ht (Having.start hv h0)).peek hv h1
    exact hq.tail [] e (waiting { q' with peeked := none }) (by simp [waiting, hpk]) he
  obtain ⟨⟨g1, g0, g2, P, g3, g4⟩, g5, g6⟩ := hH.last ts e (by rw [hw, List.append_nil]) he
  have hheap : q'.reader.queue.heap = [] := by
    obtain ⟨l, hl⟩ := hH.rep
    have hs := Queue.drain_stable _ _ _ hl (Nat.le_trans (Nat.le_of_eq hl.len.symm) (Nat.le_succ _))
    have h2 : q'.reader.queue.intoSortedVec = [] := by
      simpa [waiting] using hw
    have h3 := hs.perm.length_eq
    have h4 : (Queue.intoSortedVec q'.reader.queue).length = l.length := h3
    rw [h2] at h4
    have := hl.len
    rw [← h4] at this
    exact List.length_eq_zero_iff.1 this
  obtain ⟨hbo, ⟨-, hT⟩ | ⟨hd, -⟩⟩ := hG.mid
  · rw [hw, List.append_nil] at hT
    have hn := hT.1.nest
    rw [show deliver ([] : List TokenEntry) = [] from rfl, List.append_nil] at hn
    have hc := (nest_counts hn).1
    rw [hf] at hc
    dsimp only at hc
    refine ⟨hbo, g2, g1, g0.1 (by dsimp only; omega), rfl, ⟨q'.reader.queue.increment, ?_⟩, g5, g6⟩
    dsimp only
    rw [← hheap]
  · dsimp only at hd g2
    rw [g2] at hd
    cases hd

section Parser

variable {σ : Type} {d : Drive σ}

/-- The token that waits after the end of a document ends the stream, and so does the event. -/
theorem nextEvent_last (fuel : Nat) {s : PS σ} {r : Nat} {q : PeekReader σ}
    (hs : s.parser.state = ⟨.DocumentStart true false, []⟩) (hd : s.parser.done = false)
    (hp : s.tokens.peek d = (.ok (some ⟨.Token .StreamEnd, r⟩), q)) (hq : q.peeked = some ⟨.Token .StreamEnd, r⟩) :
    ∃ s', Parser.nextEvent d (fuel + 2) s = (.ok (some ⟨r, r, .StreamEnd⟩), s') ∧ s'.parser.done = true := by
  unfold Parser.nextEvent
  have h1 : Parser.stateTransition d (fuel + 2) s =
      (.ok none, { s with tokens := q, parser := { s.parser with state := ⟨.StreamEnd, []⟩ } }) := by
    unfold Parser.stateTransition
    simp only [bind, SO.bind, SO.get, hs]
    simp [Parser.documentStart, Parser.skipEndsIf, bind, SO.bind, pure, SO.pure, PM.peek, PM.peekMaybe, PM.onTokens, hp, TokenEntry.marker, MaybeToken.marker,
      Marker.ofToken, PM.setTop, PM.onState, SO.modify, StateMachine.setTop, hs]
  rw [Parser.nextEventLoop_succ hd, h1]
  dsimp only
  rw [Parser.nextEventLoop_succ (by exact hd)]
  simp [Parser.stateTransition, Parser.streamEnd, Parser.consumeStreamEnd, bind, SO.bind, SO.get, pure, SO.pure, hd, PM.pop, PM.onTokens, PeekReader.pop, hq,
    SO.modify]

theorem calls_done {s s' : PS σ} {os : List (Out ParseError (Option Event))} (h : Calls d s os s') (hd : s.parser.done = true) : ∀ o ∈ os, o = .ok none := by
  induction h with
  | nil => exact nofun
  | @cons s s1 s2 o os fuel h hdv _ ih =>
    cases fuel with
    | zero => cases h; exact absurd rfl hdv
    | succ fuel =>
      simp [Parser.nextEvent, Parser.nextEventLoop, bind, SO.bind, SO.get, hd, pure, SO.pure] at h
      obtain ⟨rfl, rfl⟩ := h
      intro o ho
      rcases List.mem_cons.1 ho with rfl | ho
      · rfl
      · exact ih hd o ho

theorem nextEvent_peek_fails {fuel : Nat} {s s' : PS σ} {o : Out ParseError (Option Event)} (hs : s.parser.state = ⟨.DocumentStart true false, []⟩)
    (hd : s.parser.done = false) (hp : (s.tokens.peek d).1 = .panic)
    (h : Parser.nextEvent d fuel s = (o, s')) (ho : o ≠ .diverge) : o = .panic := by
  unfold Parser.nextEvent at h
  cases fuel with
  | zero => cases h; exact absurd rfl ho
  | succ fuel =>
    rw [Parser.nextEventLoop_succ hd] at h
    have h1 : Parser.stateTransition d (fuel + 1) s = Parser.documentStart d (fuel + 1) true false s := by
      unfold Parser.stateTransition
      simp only [bind, SO.bind, SO.get, hs]
    rw [h1] at h
    generalize hx : s.tokens.peek d = x at hp
    obtain ⟨x, q⟩ := x
    dsimp only at hp
    subst hp
    simp [Parser.documentStart, Parser.skipEndsIf, bind, SO.bind, pure, SO.pure, PM.peek, PM.peekMaybe, PM.onTokens, hx] at h
    exact h.1.symm

end Parser

/-- After an explicit end of a document white space and comments are followed by the end of the stream. -/
theorem blank_end {base : Str} (hv : validUtf8 base = true) (h0 : Tidy [] ⟨{}, base, []⟩) {es : List Event} {s : PS Scanner} {ev : Event}
    (h : Yields (borrowDrive opts base) (start {}) es s) (he : es.getLast? = some ev) (hev : ev.data = .DocumentEnd false) {n : Nat}
    (hR : Skips true (unread base s) n []) :
    s.parser.state = ⟨.DocumentStart true false, []⟩ ∧ s.parser.done = false ∧
      ((¬ Ascii (unread base s) ∧ (s.tokens.peek (borrowDrive opts base)).1 = .panic) ∨
      ∀ fuel, ∃ s', Parser.nextEvent (borrowDrive opts base) (fuel + 2) s =
        (.ok (some ⟨ev.stop + (unread base s).length, ev.stop + (unread base s).length, .StreamEnd⟩), s') ∧ s'.parser.done = true) := by
  obtain ⟨ts, p, e, h1, h2, h3, -, hstop, h4, h5⟩ := yields_left (p0 := PeekReader.new {}) h he hev (acc := []) (Parser.new_first _) (.nil _)
  have hpk : s.tokens.peeked = none := by
    obtain ⟨q', -, hq⟩ := PeekReader.peek_of_pop h2
    rw [hq]
  obtain ⟨toks', htoks', hf⟩ := yields_even h h4 h5 hpk
  obtain ⟨g1, g2, g3, g4, g5, ⟨i, g6⟩, g7, g8⟩ := reader_past hv h0 h1 h2 h3 htoks' hf
  unfold unread at hR ⊢
  have hp := peek_blank (opts := opts) g5 g6 g7 g1 g2 g3 g4 hR
  rw [← g8, ← hstop] at hp
  refine ⟨h4, h5, hp.imp (fun h => h) ?_⟩
  rintro ⟨q, hp, hq⟩ fuel
  exact nextEvent_last fuel h4 h5 hp hq

end Yary.Moved
