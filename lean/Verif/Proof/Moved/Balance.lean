import Verif.Proof.Sound
import Verif.Spec.Tokens

/-! # The flow collections of a stream of tokens are closed -/

namespace Yary.Moved

open Spec

variable {σ : Type} {drive : Drive σ}

/-- As many starts of flow collections as ends; `n` more ends. -/
def Even (n : Nat) (us : List MaybeToken) : Prop :=
  (us.map MaybeToken.marker).countP isFlowEnd = (us.map MaybeToken.marker).countP isFlowStart + n

theorem Even.append {n m : Nat} {us vs : List MaybeToken} (h : Even n us) (h' : Even m vs) : Even (n + m) (us ++ vs) := by
  unfold Even at *
  rw [List.map_append, List.countP_append, List.countP_append]
  omega

theorem Even.cons {n : Nat} {t : MaybeToken} {us : List MaybeToken} (h : Even n us) (h1 : isFlowStart t.marker = false) (h2 : isFlowEnd t.marker = false) :
    Even n (t :: us) := by
  unfold Even at *
  rw [List.map_cons, List.countP_cons_of_neg (by simp [h2]), List.countP_cons_of_neg (by simp [h1])]
  exact h

theorem Even.begin {n : Nat} {t : MaybeToken} {us : List MaybeToken} (h : Even (n + 1) us) (h1 : isFlowStart t.marker = true) (h2 : isFlowEnd t.marker = false) :
    Even n (t :: us) := by
  unfold Even at *
  rw [List.map_cons, List.countP_cons_of_neg (by simp [h2]), List.countP_cons_of_pos (by simp [h1])]
  omega

theorem even_nil : Even 0 [] := rfl

theorem even_props {ps : List MaybeToken} {a : Option Str} {t : Option (Str × Str)} (h : TProps ps a t) : Even 0 ps := by
  cases h <;> rfl

theorem even_scalar {t : MaybeToken} {c : ScalarLike} (h : TScalar t c) : Even 0 [t] := by
  cases h <;> rfl

variable {tags : List (Str × Str)}

mutual

theorem even_node {b : Bool} {k : NodeKind} {us : List MaybeToken} {es : List EventData} : TNode tags b k us es → Even 0 us
  | .ref .. => rfl
  | .scalar _ _ hp _ ht => (even_props hp).append (even_scalar ht)
  | .empty _ _ hp _ _ => even_props hp
  | .blockSeq _ hp _ he => (even_props hp).append ((even_blockSeq he).cons rfl rfl)
  | .blockMap _ hp _ he => (even_props hp).append ((even_blockMap he).cons rfl rfl)
  | .flowSeq _ _ hp _ he => (even_props hp).append ((even_flowSeq he).begin rfl rfl)
  | .flowMap _ _ hp _ he => (even_props hp).append ((even_flowMap he).begin rfl rfl)

theorem even_part {b : Bool} {k : NodeKind} {us : List MaybeToken} {es : List EventData} : TPart tags b k us es → Even 0 us
  | .leftOut .. => rfl
  | .node h => even_node h

theorem even_value {b : Bool} {us : List MaybeToken} {es : List EventData} : TValue tags b us es → Even 0 us
  | .leftOut .. => rfl
  | .value h => (even_part h).cons rfl rfl

theorem even_blockSeq {us : List MaybeToken} {es : List EventData} : TBlockSeq tags us es → Even 0 us
  | .close => rfl
  | .entry h t => ((even_part h).append (even_blockSeq t)).cons rfl rfl

theorem even_blockMap {us : List MaybeToken} {es : List EventData} : TBlockMap tags us es → Even 0 us
  | .close => rfl
  | .pair hk hv t => ((even_part hk).append ((even_value hv).append (even_blockMap t))).cons rfl rfl

theorem even_flowSeq {b : Bool} {us : List MaybeToken} {es : List EventData} : TFlowSeq tags b us es → Even 1 us
  | .close _ => rfl
  | .trailing => rfl
  | .first h t => (even_flowEntry h).append (even_flowSeq t)
  | .next h t => ((even_flowEntry h).append (even_flowSeq t)).cons rfl rfl

theorem even_flowEntry {us : List MaybeToken} {es : List EventData} : TFlowEntry tags us es → Even 0 us
  | .node h => even_node h
  | .pair hk hv => ((even_part hk).append (even_value hv)).cons rfl rfl

theorem even_flowMap {b : Bool} {us : List MaybeToken} {es : List EventData} : TFlowMap tags b us es → Even 1 us
  | .close _ => rfl
  | .trailing => rfl
  | .first h t => (even_flowPair h).append (even_flowMap t)
  | .next h t => ((even_flowPair h).append (even_flowMap t)).cons rfl rfl

theorem even_flowPair {us : List MaybeToken} {es : List EventData} : TFlowPair tags us es → Even 0 us
  | .node h => even_node h
  | .pair hk hv => ((even_part hk).append (even_value hv)).cons rfl rfl

end

theorem even_directives {us : List MaybeToken} {v : Option Version} {tags : List (Str × Str)} (h : TDirectives us v tags) : Even 0 us := by
  induction h with
  | nil => rfl
  | version _ _ _ ih => exact ih.append (m := 0) (by rfl)
  | tag _ _ _ _ ih => exact ih.append (m := 0) (by rfl)

theorem even_end {b : Bool} {us : List MaybeToken} {es : List EventData} (h : TEnd b us es) : Even 0 us := by
  cases h <;> rfl

theorem even_content {us : List MaybeToken} {es : List EventData} (h : TContent tags us es) : Even 0 us := by
  cases h with
  | nothing => rfl
  | node h => exact even_node h

theorem even_docs {b : Bool} {us : List MaybeToken} {es : List EventData} (h : TDocs b us es) : Even 0 us := by
  induction h with
  | done => rfl
  | bare h he _ ih => exact (even_node h).append ((even_end he).append ih)
  | explicit hd h he _ ih => exact (even_directives hd).append (((even_content h).append ((even_end he).append ih)).cons rfl rfl)

/-- In the tokens of a stream the flow collections are closed. -/
theorem even_stream {us : List MaybeToken} {es : List EventData} (h : TStream us es) : Even 0 us := by
  cases h with
  | empty => rfl
  | docs _ h => exact (even_docs h).cons rfl rfl

theorem ahd_append {s1 s2 : PS σ} {us : List TokenEntry} {vs : List MaybeToken} (h : Pops drive s1.tokens us s2.tokens) (ha : Sound.Ahd s2 vs) :
    Sound.Ahd s1 (Sound.bare us ++ vs) := by
  intro e he
  obtain ⟨l, hl⟩ := h.head he
  cases us with
  | nil =>
    simp only [List.nil_append] at hl
    have hp : s2.tokens.peeked = some e := by
      cases hq : s2.tokens.peeked <;> simp_all
    simpa using ha e hp
  | cons u us =>
    simp only [List.cons_append, List.cons.injEq] at hl
    exact .inr ⟨Sound.bare us ++ vs, by simp [hl.1]⟩

/-- What calls of a parser take is within the grammar. -/
theorem yields_keeps {es : List Event} {s s' : PS σ} (h : Yields drive s es s') : First s → Sound.Bang s.parser →
    ∃ ts, Pops drive s.tokens ts s'.tokens ∧
      ∀ us fs, Sound.Ahd s' us → Sound.Todo s'.parser us fs → Sound.Todo s.parser (Sound.bare ts ++ us) (es.map (·.data) ++ fs) := by
  induction h with
  | nil s => exact fun _ _ => ⟨[], .nil _, fun us fs _ h => h⟩
  | cons fuel h _ ih =>
    intro hf hb
    obtain ⟨h1, -, h2, ts, h3, h4⟩ := Sound.nextEvent_so hf hb h
    obtain ⟨us, g1, g2⟩ := ih h1 h2
    refine ⟨ts ++ us, h3.append g1, fun vs fs ha ht => ?_⟩
    have := h4 _ _ (ahd_append g1 ha) (g2 _ _ ha ht)
    simpa using this

/-- After an explicit end of a document the flow collections are closed. -/
theorem yields_even {src : σ} {es : List Event} {s : PS σ} (h : Yields drive (start src) es s) (hst : s.parser.state = ⟨.DocumentStart true false, []⟩)
    (hd : s.parser.done = false) (hp : s.tokens.peeked = none) :
    ∃ ts, Pops drive (PeekReader.new src) ts s.tokens ∧
      (ts.map TokenEntry.marker).countP isFlowStart = (ts.map TokenEntry.marker).countP isFlowEnd := by
  obtain ⟨ts, h1, h2⟩ := yields_keeps h (Parser.new_first src) ⟨bytes! "!", by simp [start, Parser.new, Directives.default, defaultTags]⟩
  refine ⟨ts, h1, ?_⟩
  have h3 := h2 [.Token .StreamEnd] [.StreamEnd] (fun e he => by rw [hp] at he; cases he) (by
    rw [Sound.todo_of hd]
    show Sound.Rest _ (s.parser.state.top :: s.parser.state.stack) _ _
    rw [hst]
    exact ⟨_, _, [], [], TDocs.done true, ⟨rfl, rfl⟩, rfl, rfl⟩)
  simp only [Sound.Todo, start, Parser.new, Bool.false_eq_true, if_false] at h3
  obtain ⟨u, v, us, fs, hk, ⟨rfl, rfl⟩, h4, -⟩ := h3
  rw [List.append_nil] at h4
  subst h4
  have h5 := even_stream (show TStream _ _ from hk)
  unfold Even at h5
  rw [List.map_append, List.countP_append, List.countP_append, List.map_map] at h5
  exact h5.symm

end Yary.Moved
