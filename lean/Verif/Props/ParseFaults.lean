import Verif.Proof.ParseFaultsRun
import Verif.Props.Complete
import Verif.Props.Scanner

/-! # Parse errors name what is wrong -/

namespace Yary

open Spec

variable {σ : Type} {drive : Drive σ}

/-! ### C56 -/

/-- **C56**: an error of the parser names what is wrong: the source fails or ends, or the tokens taken so far and the one that is next
are not the beginning of a stream, in the way the error says. -/
theorem C56_means {src : σ} {es : List Event} {s s' : PS σ} {fuel : Nat} {e : ParseError} (h : Yields drive (start src) es s)
    (he : Parser.nextEvent drive fuel s = (.err e, s')) :
    ∃ ts p, Pops drive (PeekReader.new src) ts p ∧ ParseFault drive es ts p e := by
  obtain ⟨hf, hi⟩ := PFault.yields_inv h (Parser.new_first src) (.inr ⟨[], PFault.inv_start drive src⟩)
  exact PFault.wpe_run_err (PFault.nextEventLoop_pf hf hi) he

/-- `--- [a b`: the tokens `StreamStart`, `DocumentStart`, `FlowSequenceStart`, `Scalar` are taken, and `b` is neither a `,` nor a `]`. -/
def unseparated : List TokenEntry :=
  [⟨.Token (.StreamStart .UTF8), 0⟩, ⟨.Token .DocumentStart, 0⟩, ⟨.Token .FlowSequenceStart, 4⟩, ⟨.Token (.Scalar (bytes! "a") .Plain), 5⟩,
   ⟨.Token (.Scalar (bytes! "b") .Plain), 7⟩]

example : Yields listDrive (start unseparated) (collect listDrive 20 4 (start unseparated)).1 (collect listDrive 20 4 (start unseparated)).2 ∧
    (Parser.nextEvent listDrive 20 (collect listDrive 20 4 (start unseparated)).2).1 = .err .MissingFlowSequenceEntryOrEnd :=
  ⟨collect_yields _ _ _, by decide +kernel⟩

theorem last_isDirective {before dirs : List TokenEntry} (hd : ∀ t ∈ dirs, isDirective t = true) (hv : versions dirs ≠ []) :
    lastMarker (before ++ dirs) = some .VersionDirective ∨ lastMarker (before ++ dirs) = some .TagDirective :=
  PFault.directive_last hd (by rintro rfl; exact hv rfl)

/-- Which of the errors of a token it is depends on the last token and the innermost collection. -/
theorem misplaced_cases {ts : List TokenEntry} {m : Marker} {e : ParseError} (h : Misplaced ts m e) :
    (e = .CorruptStream ∧ lastMarker ts = none) ∨
    (e = .DuplicateVersion ∧ (lastMarker ts = some .VersionDirective ∨ lastMarker ts = some .TagDirective) ∧ m = .VersionDirective) ∨
    (e = .MissingDocumentStart ∧ (lastMarker ts = some .VersionDirective ∨ lastMarker ts = some .TagDirective) ∧ m ≠ .VersionDirective) ∨
    (e = .MissingDocumentStart ∧ NodeBefore ts ∧ inside ts = none) ∨
    (e = .MissingNode ∧ ∃ x, lastMarker ts = some x ∧ (x ∈ [.StreamStart, .DocumentEnd, .DocumentStart, .BlockEntry, .Key, .FlowSequenceStart, .FlowMappingStart, .FlowEntry] ∨
      x = .Value ∧ (m ≠ .Value ∨ inside ts ≠ some .BlockMappingStart))) ∨
    (e = .MissingBlockEntry ∧ inside ts = some .BlockSequenceStart ∧ (lastMarker ts = some .BlockSequenceStart ∨ NodeBefore ts)) ∨
    (e = .MissingKey ∧ inside ts = some .BlockMappingStart ∧
      (lastMarker ts = some .BlockMappingStart ∨ NodeBefore ts ∨ lastMarker ts = some .Value ∧ m = .Value)) ∨
    (e = .MissingFlowSequenceEntryOrEnd ∧ inside ts = some .FlowSequenceStart ∧ NodeBefore ts) ∨
    (e = .MissingFlowMappingEntryOrEnd ∧ inside ts = some .FlowMappingStart ∧ NodeBefore ts) := by
  cases h with
  | stream h hm => exact .inl ⟨rfl, by rw [h]; rfl⟩
  | version h hd hv hm => subst h; exact .inr (.inl ⟨rfl, last_isDirective hd hv, hm⟩)
  | afterDirectives h hm => exact .inr (.inr (.inl ⟨rfl, h, by rintro rfl; simp at hm⟩))
  | afterDocument hi h hm => exact .inr (.inr (.inr (.inl ⟨rfl, h, hi⟩)))
  | node h hm =>
    refine .inr (.inr (.inr (.inr (.inl ⟨rfl, ?_⟩))))
    cases h with
    | bare h hm => rcases h with h | h <;> exact ⟨_, h, .inl (by decide)⟩
    | document h hm => exact ⟨_, h, .inl (by decide)⟩
    | entry hi h hm => exact ⟨_, h, .inl (by decide)⟩
    | block hi h hm =>
      rcases h with h | h
      · exact ⟨_, h, .inl (by decide)⟩
      · exact ⟨_, h, .inr ⟨rfl, .inl (by rintro rfl; simp at hm)⟩⟩
    | flowEntry hi h hm => rcases h with h | h <;> exact ⟨_, h, .inl (by decide)⟩
    | pairKey hi h hm => exact ⟨_, h, .inl (by decide)⟩
    | pairValue hi h hm => exact ⟨_, h, .inr ⟨rfl, .inr (by simp [hi])⟩⟩
    | flowKey hi h hm => rcases h with h | h <;> exact ⟨_, h, .inl (by decide)⟩
    | flowMarkedKey hi h hm => exact ⟨_, h, .inl (by decide)⟩
    | flowValue hi h hm => exact ⟨_, h, .inr ⟨rfl, .inr (by simp [hi])⟩⟩
  | entry hi h hm => exact .inr (.inr (.inr (.inr (.inr (.inl ⟨rfl, hi, h⟩)))))
  | key hi h hm => exact .inr (.inr (.inr (.inr (.inr (.inr (.inl ⟨rfl, hi, h⟩))))))
  | sequence hi h hm => exact .inr (.inr (.inr (.inr (.inr (.inr (.inr (.inl ⟨rfl, hi, h⟩)))))))
  | mapping hi h hm => exact .inr (.inr (.inr (.inr (.inr (.inr (.inr (.inr ⟨rfl, hi, h⟩)))))))

/-- **C56**: the errors are told apart: at most one of them is what is wrong with a token. -/
theorem C56_unique {ts : List TokenEntry} {m : Marker} {e e' : ParseError} (h : Misplaced ts m e) (h' : Misplaced ts m e') : e = e' := by
  have key : ∀ {x : Marker}, lastMarker ts = some x → (NodeBefore ts ↔ x ∈ nodeEnds) := by
    intro x hx
    constructor
    · rintro ⟨y, hy, h⟩
      rw [hx] at h
      cases h
      exact hy
    · exact fun h => ⟨x, h, hx⟩
  replace h := misplaced_cases h
  replace h' := misplaced_cases h'
  cases hl : lastMarker ts with
  | none =>
    have hn : ¬ NodeBefore ts := by rintro ⟨y, -, h⟩; rw [hl] at h; cases h
    simp [hl, hn] at h h'
    rw [h, h']
  | some x =>
    rw [key hl, hl] at h h'
    rcases h with ⟨rfl, h⟩ | ⟨rfl, h⟩ | ⟨rfl, h⟩ | ⟨rfl, h⟩ | ⟨rfl, h⟩ | ⟨rfl, h⟩ | ⟨rfl, h⟩ | ⟨rfl, h⟩ | ⟨rfl, h⟩ <;>
      rcases h' with ⟨rfl, h'⟩ | ⟨rfl, h'⟩ | ⟨rfl, h'⟩ | ⟨rfl, h'⟩ | ⟨rfl, h'⟩ | ⟨rfl, h'⟩ | ⟨rfl, h'⟩ | ⟨rfl, h'⟩ | ⟨rfl, h'⟩ <;>
      first
      | rfl
      | (exfalso; clear key hl; generalize inside ts = i at h h'; revert h h'; cases x <;> simp [nodeEnds] <;> intros <;> simp_all)

/-- The node after a `-` is missing, and nothing else is wrong. -/
example : Misplaced [⟨.Token (.StreamStart .UTF8), 0⟩, ⟨.Token .BlockSequenceStart, 0⟩, ⟨.Token .BlockEntry, 0⟩] .Value .MissingNode :=
  .node (.entry rfl rfl (by decide)) (by rintro (h | ⟨h, -⟩) <;> revert h <;> decide)

/-! ### Texts -/

theorem pops_only {p p' q : PeekReader σ} {ts : List TokenEntry} (h : Pops drive p ts q) (hp : Peeked drive p p') :
    ∃ q', Peeked drive q q' ∧ runOps drive (List.replicate ts.length .pop) p' = (ts.map fun t => (.pop, .ok (some t)), q') := by
  induction h generalizing p' with
  | nil p => exact ⟨p', hp, rfl⟩
  | peek h _ ih => exact ih (peeked_peek hp h)
  | @pop p q r e ts h t ih =>
    obtain ⟨q', h1, h2⟩ := ih (.inl rfl)
    refine ⟨q', h1, ?_⟩
    rw [peeked_pop hp] at h
    simp only [List.length_cons, List.replicate_succ, runOps, ROp.run, h, h2, List.map_cons]

theorem runOps_append {a b : List ROp} {p : PeekReader σ} : runOps drive (a ++ b) p =
    ((runOps drive a p).1 ++ (runOps drive b (runOps drive a p).2).1, (runOps drive b (runOps drive a p).2).2) := by
  induction a generalizing p with
  | nil => rfl
  | cons op a ih => simp [runOps, ih]

theorem none_stays {p q : PeekReader σ} (h : p.pop drive = (.ok none, q)) (n : Nat) :
    (runOps drive (List.replicate n .pop) p).1 = List.replicate n (.pop, .ok none) := by
  induction n generalizing p q with
  | zero => rfl
  | succ n ih =>
    simp only [List.replicate_succ, runOps, ROp.run, h]
    rw [ih (C35_none_is_final _ _ h).2.2]

theorem text_ends {opts : SFlags} {text : List Char} {ts : List TokenEntry} {p q : PeekReader Scanner}
    (h : Pops (borrowDrive opts (utf8 text)) (PeekReader.new {}) ts p) (hp : p.peek (borrowDrive opts (utf8 text)) = (.ok none, q)) :
    ∃ t ∈ ts, t.marker = .StreamEnd := by
  obtain ⟨q', h1, h2⟩ := pops_only h (.inl rfl)
  have hpop : (q'.pop (borrowDrive opts (utf8 text))).1 = .ok none := by
    rw [← peeked_pop h1, ← (C08_peek_is_pop p).1, hp]
  obtain ⟨N, hN⟩ := C34_end_is_reached opts text
  have hrun : history opts text (List.replicate (ts.length + N) .pop) =
      (ts.map fun t => (.pop, .ok (some t))) ++ List.replicate N (.pop, .ok none) := by
    unfold history
    rw [← List.replicate_append_replicate, runOps_append]
    unfold freshReader
    rw [h2, none_stays (Prod.ext hpop rfl)]
  have hm := hN (ts.length + N) (by omega) (by
    rw [hrun]
    intro x hx
    rcases List.mem_append.1 hx with hx | hx
    · obtain ⟨t, -, rfl⟩ := List.mem_map.1 hx
      exact ⟨_, rfl⟩
    · rw [List.eq_of_mem_replicate hx]
      exact ⟨_, rfl⟩)
  have hh : handed (history opts text (List.replicate (ts.length + N) .pop)) = ts := by
    rw [hrun]
    generalize ts = l
    induction l with
    | nil =>
      generalize N = k
      induction k with
      | zero => rfl
      | succ n ih => simpa [List.replicate_succ, handed] using ih
    | cons t ts ih => simpa [handed] using ih
  unfold kindsHanded at hm
  rw [hh] at hm
  exact List.mem_map.1 hm

theorem text_first {opts : SFlags} {text : List Char} :
    ∃ sc, borrowDrive opts (utf8 text) {} = (.ok (), [⟨.Token (.StreamStart .UTF8), 0⟩], sc) := by
  have h : ∀ x, Scan.scanNextToken { opts with extendable := false } ⟨{}, x, []⟩ =
      (.ok (), ⟨{ ({} : Scanner) with simpleKeyAllowed := true, state := .Stream }, x, [⟨.Token (.StreamStart .UTF8), 0⟩]⟩) := fun _ => rfl
  unfold borrowDrive scanTokens
  rw [scanLoop, if_pos (by rfl), if_pos (by simp [isBoundary]), h]
  dsimp only
  rw [scanLoop, if_neg (by simp [Scanner.keyPossible])]
  exact ⟨_, rfl⟩

theorem pop_new {src src' : σ} {t : TokenEntry} (h : drive src = (.ok (), [t], src')) :
    ((PeekReader.new src).pop drive).1 = .ok (some t) := by
  simp only [PeekReader.pop, PeekReader.takeNext, Reader.scanTokens, PeekReader.new, Reader.isExhausted, Reader.new]
  simp [h]
  rfl

theorem text_fails {opts : SFlags} {text : List Char} {p q : PeekReader Scanner} {e : ReaderError}
    (h : p.peek (borrowDrive opts (utf8 text)) = (.err e, q)) : ∃ e', e = .Scanner e' := by
  have hd : ∀ sc e r, borrowDrive opts (utf8 text) sc = (.err e, r) → ∃ e', e = .Scanner e' := by
    intro sc e r h
    unfold borrowDrive at h
    split at h <;> simp at h
    exact ⟨_, h.1.symm⟩
  unfold PeekReader.peek at h
  split at h
  · simp at h
  · next hp =>
    split at h
    · cases hr : p.reader.scanTokens (borrowDrive opts (utf8 text)) with
      | mk o r =>
        have ho : ∀ e, o = .err e → ∃ e', e = .Scanner e' := by
          intro e he
          subst he
          unfold Reader.scanTokens at hr
          cases hb : borrowDrive opts (utf8 text) p.reader.src with
          | mk o b =>
            rw [hb] at hr
            obtain ⟨b, sc⟩ := b
            cases o <;> simp at hr
            exact hd _ _ _ (hr.1 ▸ hb)
        unfold PeekReader.takeNext at h
        rw [if_neg (by simp [hp]), hr] at h
        split at h
        · simp at h
        · next e' p' heq =>
          simp only [Prod.mk.injEq, Out.err.injEq] at h
          obtain ⟨rfl, rfl⟩ := h
          dsimp only at heq
          by_cases hq : p.reader.queue.isEmpty = true
          · rw [if_pos hq] at heq
            cases o <;> simp at heq
            exact ho _ (by rw [heq.1])
          · rw [if_neg hq] at heq
            simp at heq
        · simp at h
        · simp at h
    · simp at h

/-- **C56**, for texts: an error of the parser is one of the scanner, or of the order of the tokens; a text does not break off. -/
theorem C56_text {opts : SFlags} {text : List Char} {es : List Event} {s s' : PS Scanner} {fuel : Nat} {e : ParseError}
    (h : Yields (borrowDrive opts (utf8 text)) (start {}) es s)
    (he : Parser.nextEvent (borrowDrive opts (utf8 text)) fuel s = (.err e, s')) :
    (∃ e', e = .Scanner e') ∨ e ∈ [.DuplicateVersion, .DuplicateTagDirective, .UndefinedTag, .MissingDocumentStart, .MissingNode,
      .MissingBlockEntry, .MissingKey, .MissingFlowSequenceEntryOrEnd, .MissingFlowMappingEntryOrEnd] := by
  obtain ⟨ts, p, h1, h2⟩ := C56_means h he
  cases h2 with
  | source h =>
    obtain ⟨e', rfl⟩ := text_fails h
    exact .inl ⟨e', rfl⟩
  | ends h hn =>
    obtain ⟨t, ht, hm⟩ := text_ends h1 h
    exact absurd hm (hn t ht)
  | undefined h => exact .inr (by decide)
  | redefined h => exact .inr (by decide)
  | token ht h =>
    cases h with
    | stream h hm =>
      subst h
      obtain ⟨q', g1, g2⟩ := pops_only h1 (.inl rfl)
      obtain ⟨q, hq, -⟩ := ht
      obtain ⟨sc, hsc⟩ := text_first (opts := opts) (text := text)
      have hq' : q' = PeekReader.new {} := (Prod.mk.inj g2).2.symm
      have := (C08_peek_is_pop (drive := borrowDrive opts (utf8 text)) p).1
      rw [hq, peeked_pop g1, hq', pop_new hsc] at this
      simp only [Out.ok.injEq, Option.some.injEq] at this
      exact absurd (by rw [this]; rfl) hm
    | _ => exact .inr (by decide)

/-- A tag with a handle that is not declared. -/
example : let d := borrowDrive {} (utf8 "a: !x!b c".toList)
    Yields d (start {}) (collect d 30 30 (start {})).1 (collect d 30 30 (start {})).2 ∧ (collect d 30 30 (start {})).1.length = 4 ∧
    (Parser.nextEvent d 30 (collect d 30 30 (start {})).2).1 = .err .UndefinedTag :=
  ⟨collect_yields _ _ _, by decide +kernel, by decide +kernel⟩

/-- A sequence that is not closed. -/
example : let d := borrowDrive {} (utf8 "[a, b".toList)
    Yields d (start {}) (collect d 30 30 (start {})).1 (collect d 30 30 (start {})).2 ∧ (collect d 30 30 (start {})).1.length = 5 ∧
    (Parser.nextEvent d 30 (collect d 30 30 (start {})).2).1 = .err .MissingFlowSequenceEntryOrEnd :=
  ⟨collect_yields _ _ _, by decide +kernel, by decide +kernel⟩

/-- Two nodes in one document. -/
example : let d := borrowDrive {} (utf8 "[a] [b]".toList)
    Yields d (start {}) (collect d 30 30 (start {})).1 (collect d 30 30 (start {})).2 ∧ (collect d 30 30 (start {})).1.length = 6 ∧
    (Parser.nextEvent d 30 (collect d 30 30 (start {})).2).1 = .err .MissingDocumentStart :=
  ⟨collect_yields _ _ _, by decide +kernel, by decide +kernel⟩

end Yary
