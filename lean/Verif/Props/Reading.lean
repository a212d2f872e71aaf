import Verif.Proof.Reading.Tree
import Verif.Props.Chunks
import Verif.Props.Complete

/-! # C43, C44, C45: which texts are read, and into what

`Spec/Language` is a grammar of texts with their events, `Spec/Json` is the one of JSON, and
`Spec/Tree` is a way to write trees. -/

namespace Yary

open Spec

variable {opts : SFlags} {text : Str} {vs : List EventData}

/-! ### C43: the texts of the grammar are read as their events -/

theorem text_ahead (ascii : ∀ b ∈ text, b < 128) (hl : opts.lazy = false) (h : TextStream text vs) :
    ∃ toks, Ahead (borrowDrive opts text) (PeekReader.new {}) toks ∧ TStream (toks.map TokenEntry.wrap) vs := by
  obtain ⟨F, h1, h2⟩ := Reading.stream_reads (opts := { opts with extendable := false }) rfl hl ascii h
  exact ⟨_, Reading.ahead_of_goes (opts := { opts with extendable := false }) rfl (validUtf8_ascii ascii) h1, h2⟩

/-- **C43.** When a text is one of the grammar, the parser hands out exactly the events the grammar gives for it, and then
finishes; it reports no error on the way. -/
theorem C43_texts_read (ascii : ∀ b ∈ text, b < 128) (hl : opts.lazy = false) (h : TextStream text vs) :
    ∃ es s, Yields (borrowDrive opts text) (start {}) es s ∧ Finished (borrowDrive opts text) s ∧ es.map (fun e => e.data) = vs := by
  obtain ⟨toks, h1, h2⟩ := text_ahead ascii hl h
  exact C38_parser_complete h1 h2

/-- **C43**, for the caller: whatever events were handed out so far are the first ones of the grammar, and the iterator
has finished exactly when these are all. -/
theorem C43_exact (ascii : ∀ b ∈ text, b < 128) (hl : opts.lazy = false) (h : TextStream text vs) {es : List Event} {s : PS Scanner}
    (hy : Yields (borrowDrive opts text) (start {}) es s) :
    (∃ ws, vs = es.map (fun e => e.data) ++ ws ∧ (∀ w ws', ws = w :: ws' → ∃ fuel e s', e.data = w ∧
        Parser.nextEvent (borrowDrive opts text) fuel s = (.ok (some e), s'))) ∧
    (Finished (borrowDrive opts text) s ↔ es.map (fun e => e.data) = vs) := by
  obtain ⟨toks, h1, h2⟩ := text_ahead ascii hl h
  exact C38_parser_exact h1 h2 hy

/-- **C43**: the grammar gives a text at most one meaning. -/
theorem C43_meaning_unique {ws : List EventData} (ascii : ∀ b ∈ text, b < 128) (h : TextStream text vs) (h' : TextStream text ws) : vs = ws := by
  obtain ⟨es, s, hy, hf, rfl⟩ := C43_texts_read (opts := {}) ascii rfl h
  exact (C43_exact ascii rfl h' hy).2.mp hf

theorem pops_of_ahead {σ : Type} {drive : Drive σ} : ∀ {toks : List TokenEntry} {p : PeekReader σ}, Ahead drive p toks →
    (runOps drive (List.replicate toks.length .pop) p).1 = toks.map fun t => (.pop, .ok (some t))
  | [], _, _ => rfl
  | t :: toks, p, ⟨q, h1, h2⟩ => by
    have hp : p.pop drive = (.ok (some t), { q with peeked := none }) := by
      unfold PeekReader.peek at h1
      unfold PeekReader.pop
      cases hk : p.peeked with
      | some e =>
        rw [hk] at h1
        cases h1
        rfl
      | none =>
        rw [hk] at h1
        dsimp only at h1 ⊢
        split at h1
        · next hx =>
          rw [if_pos hx]
          generalize p.takeNext drive = x at h1
          obtain ⟨x, p1⟩ := x
          cases x <;> simp only [Prod.mk.injEq, reduceCtorEq, false_and, Out.ok.injEq] at h1
          obtain ⟨h1, rfl⟩ := h1
          simp [h1]
        · cases h1
    simp only [List.length_cons, List.replicate_succ, runOps, ROp.run, hp, List.map_cons]
    rw [pops_of_ahead h2]

theorem ahead_of_pops {σ : Type} {drive : Drive σ} : ∀ {toks : List TokenEntry} {p : PeekReader σ},
    (runOps drive (List.replicate toks.length .pop) p).1 = toks.map (fun t => (.pop, .ok (some t))) → Ahead drive p toks
  | [], _, _ => trivial
  | t :: toks, p, h => by
    simp only [List.length_cons, List.replicate_succ, runOps, ROp.run, List.map_cons, List.cons.injEq, Prod.mk.injEq, true_and] at h
    obtain ⟨h1, h2⟩ := h
    have := ahead_of_pops h2
    have hp : ∃ q, p.peek drive = (.ok (some t), q) ∧ (p.pop drive).2 = { q with peeked := none } := by
      unfold PeekReader.peek
      unfold PeekReader.pop at h1 ⊢
      cases hk : p.peeked with
      | some e =>
        rw [hk] at h1
        cases h1
        exact ⟨_, rfl, rfl⟩
      | none =>
        rw [hk] at h1
        dsimp only at h1 ⊢
        split at h1
        · next hx =>
          rw [if_pos hx, if_pos hx]
          generalize p.takeNext drive = x at h1
          obtain ⟨x, p1⟩ := x
          cases x <;> first | cases h1; done | skip
          dsimp only at h1 ⊢
          rw [h1]
          exact ⟨p1, rfl, rfl⟩
        · cases h1
    obtain ⟨q, hq, hq'⟩ := hp
    exact ⟨q, hq, hq' ▸ this⟩

theorem upToError_ok {toks : List TokenEntry} {h : List (ROp × Out ReaderError (Option TokenEntry))} :
    upToError h = toks.map (fun t => (.pop, .ok (some t))) → h = toks.map (fun t => (.pop, .ok (some t))) := by
  induction toks generalizing h with
  | nil =>
    intro hh
    cases h with
    | nil => rfl
    | cons x h =>
      obtain ⟨op, x⟩ := x
      cases x <;> cases hh
  | cons t toks ih =>
    intro hh
    cases h with
    | nil => cases hh
    | cons x h =>
      obtain ⟨op, x⟩ := x
      cases x with
      | ok v =>
        simp only [upToError, List.map_cons, List.cons.injEq] at hh ⊢
        exact ⟨hh.1, ih hh.2⟩
      | _ => cases hh

theorem upToError_all (toks : List TokenEntry) : upToError (toks.map fun t => (ROp.pop, .ok (some t))) = toks.map fun t => (.pop, .ok (some t)) := by
  induction toks with
  | nil => rfl
  | cons t toks ih => simp [upToError, ih]

theorem ascii_chars {text : Str} (h : Ascii text) : ∃ cs : List Char, (∀ c ∈ cs, c.toNat < 128) ∧ text = utf8 cs := by
  have h1 : ∀ n < 128, (Char.ofNat n).toNat = n := by decide
  have h2 : ∀ c ∈ text.map Char.ofNat, c.toNat < 128 := by
    intro c hc
    obtain ⟨n, hn, rfl⟩ := List.mem_map.1 hc
    have := h n hn
    rw [h1 n this]
    exact this
  refine ⟨text.map Char.ofNat, h2, ?_⟩
  rw [utf8_ascii h2, List.map_map]
  conv => lhs; rw [← List.map_id text]
  exact List.map_congr_left fun n hn => (h1 n (h n hn)).symm

/-- **C43**, for a text that is read in chunks of whatever size. -/
theorem C43_chunks {size : Nat → Nat → Nat} (hsize : ∀ a b, 0 < size a b) (ascii : ∀ b ∈ text, b < 128) (hl : opts.lazy = false) (h : TextStream text vs) :
    ∃ es s, Yields (ownedDrive size opts) (start ({ source := [(text, none)] }, {})) es s ∧ Finished (ownedDrive size opts) s ∧
      es.map (fun e => e.data) = vs := by
  obtain ⟨toks, h1, h2⟩ := text_ahead ascii hl h
  obtain ⟨cs, hcs, rfl⟩ := ascii_chars ascii
  have h3 := C21_ascii_partial (opts := opts) hsize hl hcs (List.replicate toks.length .pop)
  have h4 : history opts cs (List.replicate toks.length .pop) = toks.map fun t => (.pop, .ok (some t)) := pops_of_ahead h1
  rw [h4, upToError_all] at h3
  exact C38_parser_complete (ahead_of_pops (upToError_ok h3)) h2

/-- `- &a 'x' # c` and `- *a`. -/
example : TextStream (bytes! "- &a 'x' # c\n- *a\n")
    [.StreamStart .UTF8, .DocumentStart { version := { major := 1, minor := 2 }, tags := knownTags } true,
      .SequenceStart { anchor := none, tag := none, kind := .Root },
      .Scalar { anchor := some (bytes! "a"), tag := none, kind := .Entry } (.Eager { data := bytes! "x", style := .SingleQuote }),
      .Alias (bytes! "a"), .SequenceEnd, .DocumentEnd true, .StreamEnd] := by
  have solid : ∀ (b : Byte) (t : Str), 0x20 < b ∧ b < 0x7F ∧ b ≠ 0x23 → Skips true (b :: t) 0 (b :: t) := fun b t h =>
    Reading.Solid.skips (.inr ⟨b, t, rfl, h⟩)
  have stop : ∀ (b : Byte) (t : Str), 0x20 < b ∧ b < 0x7F ∧ b ≠ 0x23 → Gap (0x20 :: b :: t) (b :: t) := fun b t h => ⟨0, .blank (.inl rfl) (solid b t h)⟩
  have feed : ∀ {t r : Str} {n : Nat}, Skips true t n r → Skips true (0x0A :: t) (n + 1) r := fun h =>
    .line (w := [0x0A]) ⟨by decide, fun h => by cases h.1⟩ h
  have alnum : ∀ b ∈ (bytes! "a" : Str), IsAlnum b := fun b hb => ⟨'a', rfl, (List.mem_singleton.1 hb).symm⟩
  refine .docs (s := bytes! "- &a 'x' # c\n- *a\n") ⟨0, solid (b! '-') _ (by decide)⟩ (by decide) ?_
  refine .bare (b := false) (v := [.SequenceStart { anchor := none, tag := none, kind := .Root },
      .Scalar { anchor := some (bytes! "a"), tag := none, kind := .Entry } (.Eager { data := bytes! "x", style := .SingleQuote }),
      .Alias (bytes! "a"), .SequenceEnd]) (y := [.DocumentEnd true]) ⟨fun _ n h => (by cases h), fun n h => (by cases h)⟩ (.coll (.seq ?_)) .implicit .done
  refine .entry (u := bytes! " &a 'x' # c\n- *a\n") (t := bytes! "- *a\n") rfl (.inr (.inl ⟨_, .inl rfl⟩))
    (v := [.Scalar { anchor := some (bytes! "a"), tag := none, kind := .Entry } (.Eager { data := bytes! "x", style := .SingleQuote })])
    (.here (s := bytes! "&a 'x' # c\n- *a\n") ⟨stop _ _ (by decide), Reading.at_ok (by decide +kernel)⟩ (.inline (r := bytes! " # c\n- *a\n") (.leaf ?_) (.inl ?_))) ?_
  · have : Quoted true (bytes! "x' # c\n- *a\n") (bytes! "x") (bytes! " # c\n- *a\n") := quoted_doubled (s := bytes! "x") (r := bytes! " # c\n- *a\n") (by unfold NoBrk; decide) (by intro t h; cases h)
    exact .scalar (tg := none) (c := { data := bytes! "x", style := .SingleQuote }) (t := bytes! "'x' # c\n- *a\n")
      (.some (r := bytes! " 'x' # c\n- *a\n") (.anchor (.anchor (name := bytes! "a") (r := bytes! " 'x' # c\n- *a\n") (by decide) alnum rfl (by decide)))
        ⟨stop _ _ (by decide), Reading.at_ok (by decide +kernel)⟩) Reading.usable_none (.quoted this)
  · refine ⟨0, .blank (.inl rfl) (.comment (body := bytes! " c") (t := bytes! "\n- *a\n") rfl ?_ (.inr (atBreak_iff.2 rfl)) (feed (solid _ _ (by decide))))⟩
    intro i hi
    rw [atBreak_iff]
    revert i
    decide
  · refine .entry (u := bytes! " *a\n") (t := []) (by decide +kernel) (.inr (.inl ⟨_, .inl rfl⟩)) (v := [.Alias (bytes! "a")])
      (.here (s := bytes! "*a\n") ⟨stop _ _ (by decide), Reading.at_ok (by decide +kernel)⟩ (.inline (r := bytes! "\n") (.leaf (.ref ?_))
        (.inl ⟨0, feed (Reading.Solid.skips (.inl rfl))⟩))) (.close (.inl rfl))
    exact .alias (name := bytes! "a") (r := bytes! "\n") (by decide) alnum rfl (by decide)

/-- `- |-`, and two lines. -/
example : TextStream (bytes! "- |-\n a\n b\n")
    [.StreamStart .UTF8, .DocumentStart { version := { major := 1, minor := 2 }, tags := knownTags } true,
      .SequenceStart { anchor := none, tag := none, kind := .Root },
      .Scalar { anchor := none, tag := none, kind := .Entry } (.Eager { data := bytes! "a\nb", style := .Literal }),
      .SequenceEnd, .DocumentEnd true, .StreamEnd] := by
  have solid : ∀ (b : Byte) (t : Str), 0x20 < b ∧ b < 0x7F ∧ b ≠ 0x23 → Skips true (b :: t) 0 (b :: t) := fun b t h =>
    Reading.Solid.skips (.inr ⟨b, t, rfl, h⟩)
  have feed : ∀ t : Str, BreakBefore [0x0A] t := fun t => ⟨by decide, fun h => by cases h.1⟩
  have rest : ∀ (b : Byte) (t : Str), 0x20 ≤ b ∧ b < 0x80 → RestOfLine [b] ([0x0A] ++ t) := fun b t h =>
    restOfLine_ascii (by simpa using h) (.inr ⟨[0x0A], by decide, _, rfl⟩)
  have dark : ∀ {s : Str}, isWhiteSpace s = false → ¬ White s := fun h => Blocks.not_white h
  refine .docs (s := bytes! "- |-\n a\n b\n") ⟨0, solid (b! '-') _ (by decide)⟩ (by decide) ?_
  refine .bare (b := false) (v := [.SequenceStart { anchor := none, tag := none, kind := .Root },
      .Scalar { anchor := none, tag := none, kind := .Entry } (.Eager { data := bytes! "a\nb", style := .Literal }), .SequenceEnd])
    (y := [.DocumentEnd true]) ⟨fun _ n h => (by cases h), fun n h => (by cases h)⟩ (.coll (.seq ?_)) .implicit .done
  refine .entry (u := bytes! " |-\n a\n b\n") (t := []) rfl (.inr (.inl ⟨_, .inl rfl⟩))
    (v := [.Scalar { anchor := none, tag := none, kind := .Entry } (.Eager { data := bytes! "a\nb", style := .Literal })])
    (.here (s := bytes! "|-\n a\n b\n") ⟨⟨0, .blank (.inl rfl) (solid _ _ (by decide))⟩, Reading.at_ok (by decide +kernel)⟩
      (.literal (r := []) (.mk (tg := none) .none Reading.usable_none ?_) ⟨0, Reading.Solid.skips (.inl rfl)⟩)) (.close (.inl rfl))
  exact .mk (x := ⟨false, .strip, ⟨0, bytes! "a"⟩, [⟨0, bytes! "b"⟩], 1⟩) (t := bytes! " a\n b\n") (u := bytes! "\n b\n") (k := 1) (c := 1)
    ⟨[], [], [0x0A], rfl, by simp, .inl rfl, feed _⟩ (.space (.done (dark rfl))) rfl
    (.more (rest _ _ (by decide)) (feed _) (.space (by decide) (.done (.inl rfl)))
      (.last (t := []) (c := 0) (rest _ _ (by decide)) (feed _) (.done (.inr ⟨by decide, dark rfl⟩)) (.inl (by decide))))
    (by decide) (by simp) rfl

/-- **C43** is not closed under putting documents one after the other: `a: b` can be read on its own, but not after itself. -/
theorem C43_documents_false :
    (Parser.nextEvent (borrowDrive {} (bytes! "---\na: b\n")) 100 (collect (borrowDrive {} (bytes! "---\na: b\n")) 100 8 (start {})).2).1 = .ok none ∧
    (Parser.nextEvent (borrowDrive {} (bytes! "---\na: b\n---\na: b\n")) 100
      (collect (borrowDrive {} (bytes! "---\na: b\n---\na: b\n")) 100 8 (start {})).2).1 = .err .MissingNode := by
  decide +kernel

/-! ### C44: JSON -/

/-- **C44.** A JSON text is read as its value: the events of it, in an implicit document. -/
theorem C44_json_partial {es : List EventData} (hl : opts.lazy = false) (h : JsonText text es) :
    ∃ evs s, Yields (borrowDrive opts text) (start {}) evs s ∧ Finished (borrowDrive opts text) s ∧
      evs.map (fun e => e.data) = jsonStream es :=
  C43_texts_read (Reading.text_ascii h) hl (Reading.json_text h)

/-- **C44**, for a text that is read in chunks of whatever size. -/
theorem C44_chunks_partial {es : List EventData} {size : Nat → Nat → Nat} (hsize : ∀ a b, 0 < size a b) (hl : opts.lazy = false) (h : JsonText text es) :
    ∃ evs s, Yields (ownedDrive size opts) (start ({ source := [(text, none)] }, {})) evs s ∧ Finished (ownedDrive size opts) s ∧
      evs.map (fun e => e.data) = jsonStream es :=
  C43_chunks hsize (Reading.text_ascii h) hl (Reading.json_text h)

/-- `{"k": [1, "x"], "e\n": {}}`, with white space. -/
example : JsonText (bytes! "{\"k\": [1, \"x\"],\n \"e\\n\" : {} }\n")
    [.MappingStart { anchor := none, tag := none, kind := .Root }, jsonString .Key ['k'],
      .SequenceStart { anchor := none, tag := none, kind := .Value }, jsonWord .Entry (bytes! "1"), jsonString .Entry ['x'], .SequenceEnd,
      jsonString .Key ['e', '\n'], .MappingStart { anchor := none, tag := none, kind := .Value }, .MappingEnd, .MappingEnd] := by
  have space : ∀ w : Str, (w.all fun b => b == 0x20 || b == 0x09 || b == 0x0A || b == 0x0D) = true → JsonSpace w := fun w h b hb => by
    have := List.all_eq_true.1 h b hb
    simp only [Bool.or_eq_true, beq_iff_eq] at this
    rcases this with ((h | h) | h) | h <;> simp [h]
  have blank : ∀ w : Str, (w.all fun b => b == 0x20 || b == 0x09) = true → JsonBlank w := fun w h b hb => by
    have := List.all_eq_true.1 h b hb
    simpa only [Bool.or_eq_true, beq_iff_eq] using this
  have k : JsonString (bytes! "k") ['k'] := .cons (.self (c := 'k') (by decide) (by decide) (by decide)) .nil
  have x : JsonString (bytes! "x") ['x'] := .cons (.self (c := 'x') (by decide) (by decide) (by decide)) .nil
  have e : JsonString (bytes! "e\\n") ['e', '\n'] :=
    .cons (.self (c := 'e') (by decide) (by decide) (by decide)) (.cons (.letter (b := b! 'n') (c := '\n') (by decide)) .nil)
  have one : JsonNumber (bytes! "1") :=
    .mk (s := []) (i := bytes! "1") (f := []) (e := []) (.inl rfl) (.inr ⟨⟨by decide, by unfold JsonDigit; decide⟩, by intro t h; cases h⟩) (.inl rfl) (.inl rfl)
  exact .mk (a := []) (w := bytes! "{\"k\": [1, \"x\"],\n \"e\\n\" : {} }") (b := bytes! "\n") (space _ rfl)
    (.object (w := bytes! "\"k\": [1, \"x\"],\n \"e\\n\" : {} ")
      (.more (w := bytes! "\"k\": [1, \"x\"]") (w' := bytes! "\n \"e\\n\" : {} ")
        (.mk (a := []) (b := []) (c := bytes! " ") (w := bytes! "[1, \"x\"]") (d := []) (space _ rfl) k (blank _ rfl) (by decide) (space _ rfl)
          (.array (w := bytes! "1, \"x\"") (.more (a := []) (w := bytes! "1") (b := []) (w' := bytes! " \"x\"") (space _ rfl)
            (.word (.inr (.inr (.inr one)))) (space _ rfl)
            (.one (a := bytes! " ") (w := bytes! "\"x\"") (b := []) (space _ rfl) (.string x) (space _ rfl)))) (space _ rfl))
        (.one (.mk (a := bytes! "\n ") (b := bytes! " ") (c := bytes! " ") (w := bytes! "{}") (d := bytes! " ") (space _ rfl) e (blank _ rfl) (by decide) (space _ rfl)
          (.emptyObject (a := []) (space _ rfl)) (space _ rfl))))) (space _ rfl)

/-- **C44** is false of characters that are not ASCII and of surrogates, where the library panics, and of a `:` in
another line than the key, where it reports an error. -/
theorem C44_false :
    (Parser.nextEvent (borrowDrive {} (utf8 "\"é\"".toList)) 100 (collect (borrowDrive {} (utf8 "\"é\"".toList)) 100 1 (start {})).2).1 = .panic ∧
    (Parser.nextEvent (borrowDrive {} (bytes! "\"\\ud83d\\ude00\"")) 100
      (collect (borrowDrive {} (bytes! "\"\\ud83d\\ude00\"")) 100 1 (start {})).2).1 = .panic ∧
    (Parser.nextEvent (borrowDrive {} (bytes! "{\"a\"\n: 1}")) 100
      (collect (borrowDrive {} (bytes! "{\"a\"\n: 1}")) 100 5 (start {})).2).1 = .err .MissingFlowMappingEntryOrEnd := by
  decide +kernel

/-! ### C45: trees are read back -/

/-- **C45.** A tree of strings, sequences and mappings, written in block style with any indentation, is read as the
events of the tree. -/
theorem C45_tree_read {step : Nat} (hstep : 0 < step) {t : Tree} (hk : t.KeysFit) (hl : opts.lazy = false) :
    ∃ es s, Yields (borrowDrive opts (treeText step t)) (start {}) es s ∧ Finished (borrowDrive opts (treeText step t)) s ∧
      es.map (fun e => e.data) = treeStream t :=
  C43_texts_read (Reading.treeText_ascii step t) hl (Reading.tree_text hstep t hk)

/-- **C45**, for a text that is read in chunks of whatever size. -/
theorem C45_tree_chunks {step : Nat} (hstep : 0 < step) {t : Tree} (hk : t.KeysFit) {size : Nat → Nat → Nat} (hsize : ∀ a b, 0 < size a b)
    (hl : opts.lazy = false) :
    ∃ es s, Yields (ownedDrive size opts) (start ({ source := [(treeText step t, none)] }, {})) es s ∧ Finished (ownedDrive size opts) s ∧
      es.map (fun e => e.data) = treeStream t :=
  C43_chunks hsize (Reading.treeText_ascii step t) hl (Reading.tree_text hstep t hk)

/-- **C45**: nothing is lost, the events are those of this tree only. -/
theorem C45_tree_determined {t t' : Tree} (h : treeStream t = treeStream t') : t = t' := by
  simp only [treeStream, List.cons.injEq, true_and] at h
  exact (Reading.events_inj t _ _ _ _ h).1

/-- A tree of three levels, and how it is written. -/
example : let t : Tree := .map (.cons ['a'] (.seq (.cons (.text "x\n\"é".toList) (.cons (.map (.cons ['b'] (.text ['c']) (.cons ['d'] (.seq .nil) .nil)))
      (.cons (.seq (.cons (.text ['e']) .nil)) .nil)))) (.cons ['f'] (.map .nil) .nil))
    t.KeysFit ∧ treeText 2 t = bytes! "---
\"a\":
  - \"x\\U0000000A\\U00000022\\U000000E9\"
  -
    \"b\": \"c\"
    \"d\": []
  -
    - \"e\"
\"f\": {}
" := by
  refine ⟨?_, by decide +kernel⟩
  simp only [Tree.KeysFit, TreeList.KeysFit, TreePairs.KeysFit]
  decide

end Yary
