import Verif.Proof.Undefined
import Verif.Proof.ParseFaults
import Verif.Props.Shown
import Verif.Props.Parser

/-! # C71: undefined tags; C06 after errors -/

namespace Yary

open Spec Undefined

variable {σ : Type} {drive : Drive σ}

/-- The events among what calls returned. -/
def returned : List (Out ParseError (Option Event)) → List Event
  | [] => []
  | .ok (some e) :: os => e :: returned os
  | _ :: os => returned os

theorem calls_split {s s' : PS σ} {u v : List (Out ParseError (Option Event))} {o : Out ParseError (Option Event)} (h : Calls drive s (u ++ o :: v) s') :
    ∃ q q' fuel, Calls drive s u q ∧ Parser.nextEvent drive fuel q = (o, q') ∧ Calls drive q' v s' := by
  induction u generalizing s with
  | nil =>
    cases h with
    | cons fuel h _ t => exact ⟨s, _, fuel, .nil _, h, t⟩
  | cons x u ih =>
    cases h with
    | cons fuel h hd t =>
      obtain ⟨q, q', f, h1, h2, h3⟩ := ih t
      exact ⟨q, q', f, .cons fuel h hd h1, h2, h3⟩

theorem activeDirectives_cons {p p' : Parser} {e : Event} {es : List Event} (h : Next p (some e) p') :
    (activeDirectives es).getD p'.directives = (activeDirectives (e :: es)).getD p.directives := by
  have h1 := (next_trans h).1
  rw [activeDirectives]
  cases ha : activeDirectives es with
  | some d => rfl
  | none =>
    obtain ⟨a, b, d⟩ := e
    cases d <;> simpa [dirsAfter] using h1

theorem calls_dirs {s s' : PS σ} {os : List (Out ParseError (Option Event))} (h : Calls drive s os s') :
    s'.parser.directives = (activeDirectives (returned os)).getD s.parser.directives := by
  induction h with
  | nil => rfl
  | @cons s s1 s2 o os fuel h _ _ ih =>
    rw [ih]
    have hs := (Ev.nextEvent (drive := drive) fuel).same s
    rw [h] at hs
    rcases o with (_ | e) | _ | _ | _
    · rw [hs nofun]; rfl
    · exact activeDirectives_cons (Parser.nextEvent_next h)
    · rw [hs nofun]; rfl
    · rw [hs nofun]; rfl
    · rw [hs nofun]; rfl

/-- **C06**, after errors: in any history of calls, with errors anywhere, the handle of a tag on an event is defined by the directives of the last
`DocumentStart` that was returned, or, if none was, is one of those every document knows; and no scalar carries the non-specific tag `!`. -/
theorem C06_tags_after_errors {src : σ} {u v : List (Out ParseError (Option Event))} {e : Event} {s : PS σ}
    (h : Calls drive (start src) (u ++ .ok (some e) :: v) s) {handle suffix : Str} (ht : tagOf e.data = some (handle, suffix)) :
    ((∃ d, activeDirectives (returned u) = some d ∧ Defines d handle) ∨
      activeDirectives (returned u) = none ∧ ∃ p, (handle, p) ∈ knownTags) ∧
    (∀ n c, e.data = .Scalar n c → ¬ (handle = bytes! "!" ∧ suffix = [])) := by
  obtain ⟨q, q', fuel, h1, h2, -⟩ := calls_split h
  have hdir := calls_dirs h1
  have htag := (next_trans (Parser.nextEvent_next h2)).2
  have key : (q.parser.directives.tags.get handle).isSome ∧ (∀ n c, e.data = .Scalar n c → ¬ (handle = bytes! "!" ∧ suffix = [])) := by
    obtain ⟨a, b, data⟩ := e
    cases data with
    | Scalar n c =>
      have := htag handle suffix ht
      exact ⟨this.1, fun _ _ _ => this.2⟩
    | SequenceStart n => exact ⟨htag handle suffix ht, by simp⟩
    | MappingStart n => exact ⟨htag handle suffix ht, by simp⟩
    | _ => simp [tagOf] at ht
  refine ⟨?_, key.2⟩
  obtain ⟨p, hp⟩ := tagMap_get_mem key.1
  rw [hdir] at hp
  cases ha : activeDirectives (returned u) with
  | some d => rw [ha] at hp; exact .inl ⟨d, rfl, p, hp⟩
  | none => rw [ha] at hp; exact .inr ⟨rfl, p, hp⟩

/-- Two documents, and a tag that only the first one defines: the event after the error has a tag of the second document's directives. -/
example : (someCalls (borrowDrive {} (utf8 "%TAG !a! x\n--- !a!b c\n...\n%TAG !d! y\n---\n- !a!b e\n- !d!f g".toList)) 60 9 (start {})).1.map
      (fun o => match o with | .ok (some e) => some (tagOf e.data) | _ => none) =
    [some none, some none, some (some (bytes! "!a!", bytes! "b")), some none, some none, some none, none,
      some (some (bytes! "!d!", bytes! "f")), some none] := by
  decide +kernel

/-- What calls returned, and the events `es` they would have returned if all tags were defined. `u` are those before. -/
inductive Filled : List Event → List (Out ParseError (Option Event)) → List Event → Prop where
  | nil {u : List Event} : Filled u [] []
  | event {u es : List Event} {e : Event} {os : List (Out ParseError (Option Event))} (t : Filled (u ++ [e]) os es) :
      Filled u (.ok (some e) :: os) (e :: es)
  | missing {u es : List Event} {e : Event} {os : List (Out ParseError (Option Event))} {handle suffix : Str}
      (ht : tagOf e.data = some (handle, suffix)) (hd : ∃ d, activeDirectives u = some d ∧ ¬ Defines d handle) (t : Filled (u ++ [e]) os es) :
      Filled u (.err .UndefinedTag :: os) (e :: es)

namespace Undefined

/-- Calls that returned an event, under some directives. -/
inductive Steps (drive : Drive σ) : PS σ → List Event → PS σ → Prop where
  | nil (s : PS σ) : Steps drive s [] s
  | cons {s s1 s2 : PS σ} {e : Event} {es : List Event} {d d' : Directives} {fuel : Nat}
      (h : Parser.nextEvent drive fuel (put d s) = (.ok (some e), put d' s1)) (t : Steps drive s1 es s2) : Steps drive s (e :: es) s2

/-- As `Filled`, where there is a document. -/
inductive Fills : List Event → List (Out ParseError (Option Event)) → List Event → Prop where
  | nil {u : List Event} : Fills u [] []
  | event {u es : List Event} {e : Event} {os : List (Out ParseError (Option Event))} (t : Fills (u ++ [e]) os es) :
      Fills u (.ok (some e) :: os) (e :: es)
  | missing {u es : List Event} {e : Event} {os : List (Out ParseError (Option Event))} {handle suffix : Str}
      (ht : tagOf e.data = some (handle, suffix)) (hd : ∀ d, activeDirectives u = some d → ¬ Defines d handle) (t : Fills (u ++ [e]) os es) :
      Fills u (.err .UndefinedTag :: os) (e :: es)

theorem Fills.filled {u es : List Event} {os : List (Out ParseError (Option Event))} (h : Fills u os es)
    (hin : ∀ a e b, u ++ es = a ++ e :: b → (tagOf e.data).isSome → .docStart ∈ evs a) : Filled u os es := by
  induction h with
  | nil => exact .nil
  | event t ih => exact .event (ih (by simpa using hin))
  | @missing u es e os handle suffix ht hd t ih =>
    obtain ⟨d, h⟩ := activeDirectives_of_mem (hin u e es rfl (by rw [ht]; rfl))
    exact .missing ht ⟨d, h, hd d h⟩ (ih (by simpa using hin))

theorem steps_lang {s s' : PS σ} {es : List Event} (h : Steps drive s es s') {l : Option KEv} (hlive : ∃ w, LangP True s.parser.state s.parser.done w)
    (hi : RootInv s.parser.state l) :
    (∃ w, LangP True s'.parser.state s'.parser.done w) ∧
    (∀ w, LangP True s'.parser.state s'.parser.done w → LangP True s.parser.state s.parser.done (kevs es ++ w)) := by
  induction h generalizing l with
  | nil p => exact ⟨hlive, fun w h => h⟩
  | @cons s s1 s2 e es d d' fuel h t ih =>
    have h1 := next_lang (Parser.nextEvent_next h) True hlive hi (fun _ _ _ _ => trivial)
    have h2 := ih h1.1 (h1.2.2 e rfl)
    refine ⟨h2.1, fun w hw => ?_⟩
    have := h1.2.1 _ (h2.2 w hw)
    simp only [kevs, List.map_cons, Option.map_some, Option.toList_some, List.singleton_append, List.cons_append] at this ⊢
    exact this

theorem steps_chunks {s s' : PS σ} {es : List Event} (h : Steps drive s es s') (hf : First s) :
    ∃ cs, Chunks drive s.tokens cs s'.tokens ∧ cs.map (·.2) = es := by
  induction h with
  | nil => exact ⟨[], .nil _, rfl⟩
  | @cons s s1 s2 e es d d' fuel h _ ih =>
    obtain ⟨h1, ts, h2, h3, h4⟩ := Parser.nextEvent_tr (s := put d s) ⟨hf.good, hf.tok⟩ h
    obtain ⟨cs, g2, g3⟩ := ih ⟨h1.good, h1.tok⟩
    exact ⟨_, .cons h2 h3 h4 g2, by simp [g3]⟩

theorem calls_steps {s s' : PS σ} {os : List (Out ParseError (Option Event))} (h : Calls drive s os s')
    (hos : ∀ o ∈ os, (∃ e, o = .ok (some e)) ∨ o = .err .UndefinedTag) {u : List Event}
    (hu : s.parser.directives = (activeDirectives u).getD .default) : ∃ es, Steps drive s es s' ∧ Fills u os es := by
  induction h generalizing u with
  | nil => exact ⟨[], .nil _, .nil⟩
  | @cons s s1 s2 o os fuel h _ _ ih =>
    have hos' := fun o ho => hos o (List.mem_cons_of_mem _ ho)
    rcases hos o List.mem_cons_self with ⟨e, rfl⟩ | rfl
    · have hn := Parser.nextEvent_next h
      obtain ⟨es, h1, h2⟩ := ih hos' (u := u ++ [e]) (by
        have := activeDirectives_cons (es := []) hn
        simp only [activeDirectives, Option.getD_none] at this
        rw [this, hu]
        obtain ⟨a, b, d⟩ := e
        cases d with
        | DocumentStart d i => rw [PFault.activeDirectives_start (d := d) (b := i) rfl]; rfl
        | _ => rw [PFault.activeDirectives_snoc (by simp)]; rfl)
      exact ⟨e :: es, .cons (d := s.parser.directives) (d' := s1.parser.directives) h h1, .event h2⟩
    · have hv := Ev.nextEvent (drive := drive) fuel
      have hs := hv.same s
      have hx := hv.undef s
      rw [h] at hs hx
      obtain ⟨d, e, n, x, k1, k2, k3⟩ := hx rfl
      obtain ⟨es, h1, h2⟩ := ih hos' (u := u ++ [e]) (by
        rw [hs nofun, hu]
        obtain ⟨a, b, d⟩ := e
        rw [PFault.activeDirectives_snoc]
        rintro d' b' h'
        simp only at h'
        subst h'
        cases k2)
      refine ⟨e :: es, .cons k1 h1, .missing k2 (fun d' hd' ⟨p, hp⟩ => ?_) h2⟩
      rw [hu, hd', Option.getD_some] at k3
      have : (d'.tags.get n).isSome = true := by
        unfold TagMap.get
        rw [Option.isSome_map, List.find?_isSome]
        exact ⟨_, hp, by simp⟩
      rw [this] at k3
      cases k3

end Undefined

/-- **C71.** An undefined tag costs the one event that would have had it. If the only errors that calls returned are undefined tags, there is one
event for each of these calls, with the tag that is not defined by its document, such that with them the events are those of a stream
(grammatically, C03 and C05), complete if the calls came to its end, and the tokens taken are what these events are made of (C37). -/
theorem C71_undefined_tags {src : σ} {os : List (Out ParseError (Option Event))} {s : PS σ} (h : Calls drive (start src) os s)
    (hos : ∀ o ∈ os, (∃ e, o = .ok (some e)) ∨ o = .err .UndefinedTag) :
    ∃ es, Filled [] os es ∧
      (∃ rest, Kinded.Stream True (kinds es ++ rest)) ∧ (Finished drive s → Kinded.Stream True (kinds es)) ∧
      ∃ chunks, Explained chunks es ∧ Pops drive (PeekReader.new src) chunks.flatten s.tokens := by
  obtain ⟨es, h1, h2⟩ := calls_steps h hos (u := []) rfl
  obtain ⟨⟨w, hw⟩, hl⟩ := steps_lang h1 (new_live True) new_rootInv
  have hstream : Kinded.Stream True (kinds es ++ w) := new_stream (hl w hw)
  refine ⟨es, h2.filled ?_, ⟨w, hstream⟩, fun hf => ?_, ?_⟩
  · intro a e b hab htag
    have hd := stream_erase hstream
    obtain ⟨x, y, data⟩ := e
    have hev : Ev.of data = .scalar ∨ Ev.of data = .seqStart ∨ Ev.of data = .mapStart := by
      cases data <;> simp_all [tagOf, Ev.of]
    rw [List.nil_append] at hab
    refine stream_node_inside hd (v := evs b ++ w.map KEv.erase) (e := Ev.of data) ?_ hev
    rw [List.map_append, ← evs_eq, hab]
    simp [evs]
  · have := hl [] (by simp [LangP, finished_done hf])
    rw [List.append_nil] at this
    exact new_stream this
  · obtain ⟨cs, hc, rfl⟩ := steps_chunks h1 (Parser.new_first src)
    exact ⟨_, hc.explained⟩

/-- An undefined tag of a scalar, and one of a collection. The calls come to the end of the stream. -/
example : ∃ os s, Calls (borrowDrive {} (utf8 "- !x!y &k a\n- !x!z [b]".toList)) (start {}) os s ∧
    (∀ o ∈ os, (∃ e, o = .ok (some e)) ∨ o = .err .UndefinedTag) ∧ os.count (.err .UndefinedTag) = 2 ∧
    evs (returned os) = [.streamStart, .docStart, .seqStart, .scalar, .seqEnd, .seqEnd, .docEnd, .streamEnd] ∧
    (Parser.nextEvent (borrowDrive {} (utf8 "- !x!y &k a\n- !x!z [b]".toList)) 40 s).1 = .ok none := by
  refine ⟨_, _, someCalls_calls (drive := borrowDrive {} (utf8 "- !x!y &k a\n- !x!z [b]".toList)) (fuel := 40) 10 (s := start {}) (by decide +kernel),
    ?_, by decide +kernel, by decide +kernel, by decide +kernel⟩
  intro o ho
  have h : ∀ o ∈ (someCalls (borrowDrive {} (utf8 "- !x!y &k a\n- !x!z [b]".toList)) 40 10 (start {})).1,
      (match o with | .ok (some _) => true | .err .UndefinedTag => true | _ => false) = true := by decide +kernel
  have := h o ho
  split at this
  · exact .inl ⟨_, rfl⟩
  · exact .inr rfl
  · cases this

/-- So the events that are returned need not nest: here a sequence ends that has not begun. -/
theorem C71_not_nested : ∃ (text : List Char) (os : List (Out ParseError (Option Event))) (s : PS Scanner),
    Calls (borrowDrive {} (utf8 text)) (start {}) os s ∧ (∀ o ∈ os, o = .err .UndefinedTag ∨ ∀ e, o ≠ .err e) ∧
      evs (returned os) = [.streamStart, .docStart, .scalar, .seqEnd, .docEnd, .streamEnd] := by
  refine ⟨"!x!y [a]".toList, _, _, someCalls_calls (drive := borrowDrive {} (utf8 "!x!y [a]".toList)) (fuel := 40) 8 (s := start {}) (by decide +kernel),
    ?_, by decide +kernel⟩
  intro o ho
  have h : ∀ o ∈ (someCalls (borrowDrive {} (utf8 "!x!y [a]".toList)) 40 8 (start {})).1,
      (match o with | .err .UndefinedTag => true | .err _ => false | _ => true) = true := by decide +kernel
  have := h o ho
  split at this
  · exact .inl rfl
  · cases this
  · next k => exact .inr fun e he => k e he

end Yary
