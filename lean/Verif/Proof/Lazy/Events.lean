import Verif.Props.Sound
import Verif.Props.Lazy
import Verif.Props.Events

/-! # Streams of events whose scalars are evaluated later: errors -/

namespace Yary.Later

open Spec Sim

/-! ### Deferred scalars are in the events -/

/-- The deferred scalars among the tokens are in the events. -/
def Shows (us : List MaybeToken) (es : List EventData) : Prop := ∀ l, .Deferred l ∈ us → ∃ n, .Scalar n (.Lazy l) ∈ es

theorem Shows.append {u u' : List MaybeToken} {v v' : List EventData} (h : Shows u v) (h' : Shows u' v') : Shows (u ++ u') (v ++ v') := by
  intro l hl
  rcases List.mem_append.1 hl with hl | hl
  · obtain ⟨n, hn⟩ := h l hl
    exact ⟨n, List.mem_append_left _ hn⟩
  · obtain ⟨n, hn⟩ := h' l hl
    exact ⟨n, List.mem_append_right _ hn⟩

theorem Shows.cons {t : Token} {u : List MaybeToken} {v : List EventData} (h : Shows u v) : Shows (.Token t :: u) v := by
  intro l hl
  rcases List.mem_cons.1 hl with hl | hl
  · cases hl
  · exact h l hl

theorem Shows.more {e : EventData} {u : List MaybeToken} {v : List EventData} (h : Shows u v) : Shows u (e :: v) := by
  intro l hl
  obtain ⟨n, hn⟩ := h l hl
  exact ⟨n, List.mem_cons_of_mem _ hn⟩

theorem Shows.nil {v : List EventData} : Shows [] v := fun l h => by cases h

theorem shows_props {ps : List MaybeToken} {a : Option Str} {t : Option (Str × Str)} {v : List EventData} (h : TProps ps a t) : Shows ps v := by
  cases h <;> simp [Shows]

theorem shows_scalar {t : MaybeToken} {c : ScalarLike} {n : Node} (h : TScalar t c) : Shows [t] [.Scalar n c] := by
  cases h with
  | eager => simp [Shows]
  | deferred l =>
    intro l' h
    simp only [List.mem_singleton, MaybeToken.Deferred.injEq] at h
    subst h
    exact ⟨n, .head _⟩

variable {tags : List (Str × Str)}

mutual

theorem shows_node {b : Bool} {k : NodeKind} {us : List MaybeToken} {es : List EventData} : TNode tags b k us es → Shows us es
  | .ref .. => Shows.nil.cons
  | .scalar _ _ hp _ ht => (shows_props (v := []) hp).append (shows_scalar ht)
  | .empty _ _ hp _ _ => shows_props hp
  | .blockSeq _ hp _ he => (shows_props (v := [_]) hp).append (shows_blockSeq he).cons
  | .blockMap _ hp _ he => (shows_props (v := [_]) hp).append (shows_blockMap he).cons
  | .flowSeq _ _ hp _ he => (shows_props (v := [_]) hp).append (shows_flowSeq he).cons
  | .flowMap _ _ hp _ he => (shows_props (v := [_]) hp).append (shows_flowMap he).cons

theorem shows_part {b : Bool} {k : NodeKind} {us : List MaybeToken} {es : List EventData} : TPart tags b k us es → Shows us es
  | .leftOut .. => .nil
  | .node h => shows_node h

theorem shows_value {b : Bool} {us : List MaybeToken} {es : List EventData} : TValue tags b us es → Shows us es
  | .leftOut .. => .nil
  | .value h => (shows_part h).cons

theorem shows_blockSeq {us : List MaybeToken} {es : List EventData} : TBlockSeq tags us es → Shows us es
  | .close => Shows.nil.cons
  | .entry h t => ((shows_part h).append (shows_blockSeq t)).cons

theorem shows_blockMap {us : List MaybeToken} {es : List EventData} : TBlockMap tags us es → Shows us es
  | .close => Shows.nil.cons
  | .pair hk hv t => ((shows_part hk).append ((shows_value hv).append (shows_blockMap t))).cons

theorem shows_flowSeq {b : Bool} {us : List MaybeToken} {es : List EventData} : TFlowSeq tags b us es → Shows us es
  | .close _ => Shows.nil.cons
  | .trailing => Shows.nil.cons.cons
  | .first h t => (shows_flowEntry h).append (shows_flowSeq t)
  | .next h t => ((shows_flowEntry h).append (shows_flowSeq t)).cons

theorem shows_flowEntry {us : List MaybeToken} {es : List EventData} : TFlowEntry tags us es → Shows us es
  | .node h => shows_node h
  | .pair (u := u) (u' := u') hk hv => by
    have h := ((shows_part hk).append (shows_value hv)).append (Shows.nil (v := [.MappingEnd]))
    rw [List.append_nil] at h
    exact h.more.cons

theorem shows_flowMap {b : Bool} {us : List MaybeToken} {es : List EventData} : TFlowMap tags b us es → Shows us es
  | .close _ => Shows.nil.cons
  | .trailing => Shows.nil.cons.cons
  | .first h t => (shows_flowPair h).append (shows_flowMap t)
  | .next h t => ((shows_flowPair h).append (shows_flowMap t)).cons

theorem shows_flowPair {us : List MaybeToken} {es : List EventData} : TFlowPair tags us es → Shows us es
  | .node (u := u) h => by
    have h := (shows_node h).append (Shows.nil (v := [leftOut .Value]))
    rw [List.append_nil] at h
    exact h
  | .pair hk hv => ((shows_part hk).append (shows_value hv)).cons

end

theorem shows_directives {us : List MaybeToken} {v : Option Version} {tags : List (Str × Str)} (h : TDirectives us v tags) : Shows us [] := by
  induction h with
  | nil => exact .nil
  | version _ _ _ ih => exact ih.append Shows.nil.cons
  | tag _ _ _ _ ih => exact ih.append Shows.nil.cons

theorem shows_end {b : Bool} {us : List MaybeToken} {es : List EventData} (h : TEnd b us es) : Shows us es := by
  cases h with
  | implicit => exact .nil
  | explicit => exact Shows.nil.cons

theorem shows_content {us : List MaybeToken} {es : List EventData} (h : TContent tags us es) : Shows us es := by
  cases h with
  | nothing => exact .nil
  | node h => exact shows_node h

theorem shows_docs {b : Bool} {us : List MaybeToken} {es : List EventData} (h : TDocs b us es) : Shows us es ∧ .Token .StreamEnd ∈ us := by
  induction h with
  | done => exact ⟨Shows.nil.cons, .head _⟩
  | bare h he _ ih => exact ⟨((shows_node h).append ((shows_end he).append ih.1)).more, List.mem_append_right _ (List.mem_append_right _ ih.2)⟩
  | explicit hd h he _ ih =>
    exact ⟨((shows_directives hd).append ((shows_content h).append ((shows_end he).append ih.1)).cons).more,
      List.mem_append_right _ (.tail _ (List.mem_append_right _ (List.mem_append_right _ ih.2)))⟩

/-- The events of a stream have its deferred scalars; and it has an end. -/
theorem shows_stream {us : List MaybeToken} {es : List EventData} (h : TStream us es) : Shows us es ∧ .Token .StreamEnd ∈ us := by
  cases h with
  | empty => exact ⟨Shows.nil.cons.cons, by simp⟩
  | docs _ h =>
    obtain ⟨h1, h2⟩ := shows_docs h
    exact ⟨h1.more.cons, .tail _ h2⟩

/-! ### A reader that has some tokens and no more -/

variable {σ : Type} {drive : Drive σ}

/-- The tokens the reader has are `l`, and then it says that there are none. -/
def Whole (drive : Drive σ) : PeekReader σ → List TokenEntry → Prop
  | p, [] => ∃ q, p.peek drive = (.ok none, q)
  | p, t :: l => ∃ q, p.peek drive = (.ok (some t), q) ∧ Whole drive { q with peeked := none } l

theorem Whole.peek {p : PeekReader σ} {l : List TokenEntry} (h : Whole drive p l) : ∃ q, p.peek drive = (.ok l.head?, q) ∧ Whole drive q l := by
  cases l with
  | nil =>
    obtain ⟨q, hq⟩ := h
    exact ⟨q, hq, q, PeekReader.peek_none_again hq⟩
  | cons t l =>
    obtain ⟨q, h1, h2⟩ := h
    exact ⟨q, h1, q, PeekReader.peek_of_peeked (PeekReader.peek_peeked h1), h2⟩

theorem pop_none_of_peek {p q : PeekReader σ} (h : p.peek drive = (.ok none, q)) : p.pop drive = (.ok none, q) := by
  have hq : q.peeked = none := by
    have h1 := PeekReader.peek_none_again h
    unfold PeekReader.peek at h1
    cases hq : q.peeked with
    | none => rfl
    | some e => rw [hq] at h1; simp at h1
  unfold PeekReader.peek at h
  unfold PeekReader.pop
  cases hp : p.peeked with
  | some e => rw [hp] at h; simp at h
  | none =>
    rw [hp] at h
    simp only at h ⊢
    split at h
    · next hx =>
      rw [if_pos hx]
      generalize p.takeNext drive = r at h ⊢
      obtain ⟨o, p'⟩ := r
      cases o with
      | ok u =>
        simp only [Prod.mk.injEq, Out.ok.injEq] at h ⊢
        obtain ⟨h1, rfl⟩ := h
        refine ⟨h1, ?_⟩
        obtain ⟨_, _⟩ := p'
        dsimp only at hq
        rw [hq]
      | err e => simp at h
      | panic => simp at h
      | diverge => simp at h
    · next hx =>
      rw [if_neg hx]
      exact h

theorem Whole.pop {p : PeekReader σ} {l : List TokenEntry} (h : Whole drive p l) : ∃ q, p.pop drive = (.ok l.head?, q) ∧ Whole drive q l.tail := by
  cases l with
  | nil =>
    obtain ⟨q, hq⟩ := h
    exact ⟨q, pop_none_of_peek hq, q, PeekReader.peek_none_again hq⟩
  | cons t l =>
    obtain ⟨q, h1, h2⟩ := h
    exact ⟨_, Parser.pop_of_peek h1, h2⟩

theorem handed_peek {o : Out ReaderError (Option TokenEntry)} {h : List (ROp × Out ReaderError (Option TokenEntry))} : handed ((.peek, o) :: h) = handed h := rfl

/-- Its calls succeed, and hand out the tokens it has. -/
theorem Whole.run {ops : List ROp} : ∀ {p : PeekReader σ} {l : List TokenEntry}, Whole drive p l →
    (∀ x ∈ (runOps drive ops p).1, ∃ r, x.2 = .ok r) ∧ ∃ l', l = handed (runOps drive ops p).1 ++ l' ∧ Whole drive (runOps drive ops p).2 l' := by
  induction ops with
  | nil => exact fun h => ⟨fun x hx => (by cases hx), _, rfl, h⟩
  | cons op ops ih =>
    intro p l h
    cases op with
    | peek =>
      obtain ⟨q, h1, h2⟩ := h.peek
      obtain ⟨g1, l', g2, g3⟩ := ih h2
      simp only [runOps, ROp.run, h1, handed_peek]
      refine ⟨?_, l', g2, g3⟩
      intro x hx
      rcases List.mem_cons.1 hx with rfl | hx
      · exact ⟨_, rfl⟩
      · exact g1 x hx
    | pop =>
      obtain ⟨q, h1, h2⟩ := h.pop
      obtain ⟨g1, l', g2, g3⟩ := ih h2
      simp only [runOps, ROp.run, h1]
      refine ⟨?_, l', ?_, g3⟩
      · intro x hx
        rcases List.mem_cons.1 hx with rfl | hx
        · exact ⟨_, rfl⟩
        · exact g1 x hx
      · cases l with
        | nil => exact g2
        | cons t l => exact congrArg (t :: ·) g2

/-- After as many pops as it has tokens it has none. -/
theorem Whole.pops : ∀ {l : List TokenEntry} {p : PeekReader σ}, Whole drive p l → Whole drive (runOps drive (List.replicate l.length .pop) p).2 []
  | [], _, h => h
  | t :: l, p, h => by
    obtain ⟨q, h1, h2⟩ := h.pop
    simp only [List.length_cons, List.replicate_succ, runOps, ROp.run, h1]
    exact h2.pops

/-- A reader that has some tokens, and then none. -/
theorem whole_of {l : List TokenEntry} : ∀ {p : PeekReader σ}, Ahead drive p l →
    handed (runOps drive (List.replicate l.length .pop) p).1 = l ∧ (∀ x ∈ (runOps drive (List.replicate l.length .pop) p).1, ∃ r, x.2 = .ok r) ∧
    ((ROp.peek.run drive (runOps drive (List.replicate l.length .pop) p).2).1 = .ok none → Whole drive p l) := by
  induction l with
  | nil =>
    intro p _
    refine ⟨rfl, fun x hx => (by cases hx), fun h => ⟨(p.peek drive).2, ?_⟩⟩
    exact Prod.ext h rfl
  | cons t l ih =>
    rintro p ⟨q, h1, h2⟩
    obtain ⟨g1, g2, g3⟩ := ih h2
    simp only [List.length_cons, List.replicate_succ, runOps, ROp.run, Parser.pop_of_peek h1] at g3 ⊢
    refine ⟨congrArg (t :: ·) g1, ?_, fun h => ⟨q, h1, g3 h⟩⟩
    intro x hx
    rcases List.mem_cons.1 hx with rfl | hx
    · exact ⟨_, rfl⟩
    · exact g2 x hx

/-! ### The stream with evaluation -/

variable {text : List Char}

theorem allOk_prefix {opts : SFlags} {a b : List ROp} (h : AllOk (history opts text (a ++ b))) : AllOk (history opts text a) := by
  intro x hx
  refine h x ?_
  unfold history at hx ⊢
  rw [runOps_snoc]
  exact List.mem_append_left _ hx

/-- The converse of what scanning with evaluation and without have in common. -/
theorem tracks_flip {R : TokenEntry → TokenEntry → Prop} {h h' : List (ROp × Out ReaderError (Option TokenEntry))} (ht : Tracks R h h') :
    (∀ x ∈ h, ∃ r, x.2 = .ok r) → Tracks (fun e e' => R e' e) h' h := by
  induction ht with
  | nil => exact fun _ => .nil
  | token he _ ih => exact fun ha => .token he (ih fun x hx => ha x (.tail _ hx))
  | none _ ih => exact fun ha => .none (ih fun x hx => ha x (.tail _ hx))
  | fails hx =>
    intro ha
    obtain ⟨r, hr⟩ := ha _ (.head _)
    exact absurd hr (hx r)

theorem wraps_flip {C : ScalarLike → ScalarLike → Prop} {w w' : MaybeToken} (h : Wraps C w w') : Wraps (fun c c' => C c' c) w' w := by
  cases h with
  | same => exact .same _
  | scalar h h' hc => exact .scalar h' h hc

theorem entries_flip {C : ScalarLike → ScalarLike → Prop} {e e' : TokenEntry} (h : Entries C e e') : Entries (fun c c' => C c' c) e' e :=
  ⟨h.readAt.symm, wraps_flip h.wrap⟩

theorem yields_calls {s s' : PS σ} {es : List Event} (h : Yields drive s es s') {os : List (Out ParseError (Option Event))} {s1 : PS σ}
    (hc : Calls drive s' os s1) : Calls drive s (es.map (fun e => .ok (some e)) ++ os) s1 := by
  induction h with
  | nil => exact hc
  | cons fuel h _ ih => exact .cons fuel h (by simp) (ih hc)

/-- Calls that follow a stream of events to its end. -/
theorem follows_yields {C : ScalarLike → ScalarLike → Prop} {d : Drive σ} : ∀ {es : List Event} {s s1 : PS σ} {os : List (Out ParseError (Option Event))},
    Calls d s os s1 → Follows C (es.map (fun e => Out.ok (some e)) ++ [.ok none]) os →
    ∃ es' s', Yields d s es' s' ∧ Finished d s' ∧ Pairs (SameEvent C) es es'
  | [], s, s1, os, hc, hf => by
    cases hf with
    | none hf =>
      cases hf
      cases hc with
      | cons fuel h _ _ => exact ⟨[], s, .nil _, ⟨fuel, _, h⟩, .nil⟩
    | fails ho => exact absurd rfl (ho _)
  | e :: es, s, s1, os, hc, hf => by
    cases hf with
    | event he hf =>
      cases hc with
      | cons fuel h _ t =>
        obtain ⟨es', s', h1, h2, h3⟩ := follows_yields t hf
        exact ⟨_, s', .cons fuel h h1, h2, .cons he h3⟩
    | fails ho => exact absurd rfl (ho _)

/-- The tokens of a text up to the end of the stream are all there are. -/
theorem whole_of_pops {opts : SFlags} {toks : List TokenEntry} {q : PeekReader Scanner} (h : Pops (borrowDrive opts (utf8 text)) (PeekReader.new {}) toks q)
    (he : .Token .StreamEnd ∈ toks.map TokenEntry.wrap) : Whole (borrowDrive opts (utf8 text)) freshReader toks := by
  obtain ⟨g1, g2, g3⟩ := whole_of h.ahead
  refine g3 ?_
  refine C34_nothing_after_end (opts := opts) (text := text) (ops := List.replicate toks.length .pop) ?_ ?_ .peek
  · intro x hx
    obtain ⟨r, hr⟩ := g2 x hx
    rw [hr]
    simp
  · unfold kindsHanded history freshReader
    rw [g1]
    obtain ⟨e, he, hw⟩ := List.mem_map.1 he
    refine List.mem_map.2 ⟨e, he, ?_⟩
    rw [hw]
    rfl

/-- If the stream without evaluation ends, and its scalars evaluate, the calls with evaluation succeed, unless they panic. -/
theorem calls_ok (hE : NoEscapedBackslash text) (hB : PlainBreaks text) {x y : Bool} {es : List Event} {s : PS Scanner}
    (h : Yields (borrowDrive ⟨y, true⟩ (utf8 text)) (start {}) es s) (hf : Finished (borrowDrive ⟨y, true⟩ (utf8 text)) s)
    (hval : ∀ e ∈ es, ∀ n c, e.data = .Scalar n c → ∃ t, scalarOf c = .ok t) (hn : ∀ ops, NoPanic (history ⟨x, false⟩ text ops)) (ops : List ROp) :
    AllOk (history ⟨x, false⟩ text ops) := by
  obtain ⟨toks, h1, h2⟩ := C52_parser_sound h hf
  obtain ⟨h3, h4⟩ := shows_stream h2
  have hw := whole_of_pops h1 h4
  obtain ⟨k1, l', k2, k3⟩ := hw.run (ops := ops)
  have hrun : ∀ ops, AllOk (history ⟨y, true⟩ text ops) := fun ops => (hw.run (ops := ops)).1
  refine allOk_prefix (b := List.replicate l'.length .pop ++ [.pop]) ?_
  rw [← List.append_assoc]
  refine C62_partial text hE hB x y _ (hrun _) ?_ ?_ (hn _)
  · unfold history
    rw [runOps_snoc, runOps_snoc]
    obtain ⟨q, hq, -⟩ := k3.pops.pop
    simp only [runOps, ROp.run]
    rw [hq]
    simp
  · intro v hv
    obtain ⟨e, he, rfl⟩ := List.mem_map.1 hv
    obtain ⟨l2, k4, -⟩ := (hw.run (ops := ops ++ List.replicate l'.length .pop ++ [.pop])).2
    have he' : e ∈ toks := by
      rw [k4]
      exact List.mem_append_left _ he
    cases hwr : e.wrap with
    | Token t => exact ⟨t, rfl⟩
    | Deferred l =>
      obtain ⟨n, hn⟩ := h3 l (List.mem_map.2 ⟨e, he', hwr⟩)
      obtain ⟨ev, hev, hd⟩ := List.mem_map.1 hn
      exact hval ev hev n _ hd

theorem sameEvent_flip {C : ScalarLike → ScalarLike → Prop} {e e' : Event} (h : SameEvent (fun c c' => C c' c) e e') : SameEvent C e' e := by
  cases h with
  | same => exact .same _
  | scalar h => exact .scalar h

theorem pairs_flip {C : ScalarLike → ScalarLike → Prop} {es es' : List Event} (h : Pairs (SameEvent fun c c' => C c' c) es es') :
    Pairs (SameEvent C) es' es := by
  induction h with
  | nil => exact .nil
  | cons h _ ih => exact .cons (sameEvent_flip h) ih

/-- Then the stream with evaluation ends, too. -/
theorem evaluates {R : TokenEntry → TokenEntry → Prop} {C : ScalarLike → ScalarLike → Prop} (hR : ∀ e e', R e e' → Entries (fun c c' => c = c' ∨ C c c') e e')
    (hE : NoEscapedBackslash text) (hB : PlainBreaks text) {x y : Bool} (hT : ∀ ops, Tracks R (history ⟨x, false⟩ text ops) (history ⟨y, true⟩ text ops))
    {es : List Event} {s : PS Scanner}
    (h : Yields (borrowDrive ⟨y, true⟩ (utf8 text)) (start {}) es s) (hf : Finished (borrowDrive ⟨y, true⟩ (utf8 text)) s)
    (hval : ∀ e ∈ es, ∀ n c, e.data = .Scalar n c → ∃ t, scalarOf c = .ok t) (hn : ∀ ops, NoPanic (history ⟨x, false⟩ text ops)) :
    ∃ es' s', Yields (borrowDrive ⟨x, false⟩ (utf8 text)) (start {}) es' s' ∧ Finished (borrowDrive ⟨x, false⟩ (utf8 text)) s' ∧
      Pairs (SameEvent C) es' es := by
  obtain ⟨fuel, s1, hf'⟩ := id hf
  have hc := yields_calls h (.cons fuel hf' (by simp) (.nil s1))
  obtain ⟨os', s1', h1, h2⟩ := Sim.calls_follow (C := fun c c' => c' = c ∨ C c' c) (fun _ => .inl rfl)
    (Sim.tied_follow (d' := borrowDrive ⟨x, false⟩ (utf8 text)) (R := fun e e' => R e' e) fun _ _ h => entries_flip (hR _ _ h)) hc (s' := start {}) rfl
    fun ops => tracks_flip (hT ops) (calls_ok hE hB h hf hval hn ops)
  obtain ⟨es', s', g1, g2, g3⟩ := follows_yields h1 h2
  refine ⟨es', s', g1, g2, ?_⟩
  have g4 := pairs_flip (C := fun c c' => c = c' ∨ C c c') g3
  clear g1 g3 h1 h2 hc
  revert g4
  generalize es' = l
  intro g4
  clear h hf hval
  induction g4 with
  | nil => exact .nil
  | cons h _ ih => exact .cons (sameEvent_or h) ih

end Yary.Later
