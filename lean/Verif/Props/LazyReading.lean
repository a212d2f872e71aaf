import Verif.Props.LazyEvents
import Verif.Props.Reading
import Verif.Spec.Means

/-! # C43 to C47 for deferred scalars

What the grammar says of a text is what a stream with deferred scalars returns, once they are evaluated, read at once or in chunks. -/

namespace Yary

open Spec

variable {text : List Char}

namespace Later

/-- No call over a text fails whose stream comes to its end. -/
theorem ends_ok {opts : SFlags} {es : List Event} {s : PS Scanner} (h : Yields (borrowDrive opts (utf8 text)) (start {}) es s)
    (hf : Finished (borrowDrive opts (utf8 text)) s) (ops : List ROp) : AllOk (history opts text ops) := by
  obtain ⟨toks, h1, h2⟩ := C52_parser_sound h hf
  exact ((whole_of_pops h1 (shows_stream h2).2).run (ops := ops)).1

theorem tracks_back {Q : TokenEntry → TokenEntry → Prop} {E : ReaderError → Prop} (hE : ∀ e, ¬ E e)
    {h h' : List (ROp × Out ReaderError (Option TokenEntry))} (ha : AgreeBy Q E h h') :
    AllOk h' → Tracks (fun e e' => Q e' e) h' h := by
  induction ha with
  | nil => exact fun _ => .nil
  | token ht _ ih => exact fun hok => .token ht (ih fun x hx => hok x (.tail _ hx))
  | none _ ih => exact fun hok => .none (ih fun x hx => hok x (.tail _ hx))
  | same hx =>
    intro hok
    obtain ⟨r, hr⟩ := hok _ (.head _)
    exact absurd hr (hx r)
  | fails he => exact absurd he (hE _)

theorem readFails_ascii {size : Nat → Nat → Nat} (ascii : ∀ c ∈ text, c.toNat < 128) (e : ReaderError) : ¬ ReadFails size (utf8 text) none e := by
  intro he
  cases e with
  | IO e => cases he
  | UTF8 e =>
    obtain ⟨a, b, n, -, h1, h2⟩ := he
    exact h2 (cut_ascii ascii (Nat.le_of_lt h1))
  | Scanner e => exact he

theorem plain_ascii (ascii : ∀ c ∈ text, c.toNat < 128) : PlainBreaks text := by
  intro c hc
  have := ascii c hc
  refine ⟨?_, ?_, ?_⟩ <;> (rintro rfl; revert this; decide)

theorem pairs_or {C : ScalarLike → ScalarLike → Prop} {es es' : List Event} (h : Pairs (SameEvent fun c c' => c = c' ∨ C c c') es es') :
    Pairs (SameEvent C) es es' := by
  induction h with
  | nil => exact .nil
  | cons h _ ih => exact .cons (Sim.sameEvent_or h) ih

end Later

/-- **C46**, the other way round, for lazy scalars in ASCII texts without a carriage return: if a stream over the whole text comes to its end without
an error, then so does one that reads it in chunks, with the same events, except that evaluating a block scalar may ask for more text. -/
theorem C46_lazy_ends_partial {opts : SFlags} {size : Nat → Nat → Nat} (hsize : ∀ a b, 0 < size a b) (hl : opts.lazy = true) (ascii : ∀ c ∈ text, c.toNat < 128)
    (hr : '\r' ∉ text) {es : List Event} {s : PS Scanner} (h : Yields (borrowDrive opts (utf8 text)) (start {}) es s)
    (hf : Finished (borrowDrive opts (utf8 text)) s) :
    ∃ es' s', Yields (ownedDrive size opts) (start ({ source := [(utf8 text, none)] }, {})) es' s' ∧ Finished (ownedDrive size opts) s' ∧
      Pairs (SameEvent LaterScalar) es' es := by
  obtain ⟨fuel, s1, hf'⟩ := id hf
  have hc := Later.yields_calls h (.cons fuel hf' (by simp) (.nil s1))
  obtain ⟨os', s1', h1, h2⟩ := Sim.calls_follow (C := fun c c' => c' = c ∨ LaterScalar c' c) (fun _ => .inl rfl)
    (Sim.tied_follow (d' := ownedDrive size opts) (R := fun e e' => SameLater e' e) fun _ _ h => Later.entries_flip (later_entries h)) hc
    (s' := start ({ source := [(utf8 text, none)] }, {})) rfl
    fun ops => Later.tracks_back (Later.readFails_ascii ascii) (C21_lazy_partial hsize hl hr (.all _) ops) (Later.ends_ok h hf ops)
  obtain ⟨es', s', g1, g2, g3⟩ := Later.follows_yields h1 h2
  exact ⟨es', s', g1, g2, Later.pairs_or (Later.pairs_flip (C := fun c c' => c = c' ∨ LaterScalar c c') g3)⟩

/-- **C46**, the other way round, for ASCII texts and scalars that are not lazy: what calls on a stream over the whole text return, some calls on a stream
that reads it in chunks return, up to and including the first failure of the source. -/
theorem C46_ascii_back_partial {opts : SFlags} {size : Nat → Nat → Nat} (hsize : ∀ a b, 0 < size a b) (hl : opts.lazy = false)
    (ascii : ∀ c ∈ text, c.toNat < 128) {os : List (Out ParseError (Option Event))} {s : PS Scanner} (h : Calls (borrowDrive opts (utf8 text)) (start {}) os s) :
    ∃ os' s', Calls (ownedDrive size opts) (start ({ source := [(utf8 text, none)] }, {})) os' s' ∧ upToSource os' = upToSource os :=
  Sim.calls_same Sim.tied_same h rfl fun ops => (C21_ascii_partial hsize hl ascii ops).symm

/-- **C43** for deferred scalars, for texts in which no `\\"` occurs: the events of the text are those of the grammar, with what the scalars evaluate to,
up to a final line break of block scalars. -/
theorem C43_deferred_partial (ascii : ∀ c ∈ text, c.toNat < 128) (hE : NoEscapedBackslash text) {vs : List EventData} (h : TextStream (utf8 text) vs) (y : Bool) :
    ∃ es es' s, Yields (borrowDrive ⟨y, true⟩ (utf8 text)) (start {}) es' s ∧ Finished (borrowDrive ⟨y, true⟩ (utf8 text)) s ∧
      es.map (fun e => e.data) = vs ∧ Pairs (SameEvent CloseScalar) es es' := by
  have ha : ∀ b ∈ utf8 text, b < 128 := by
    rw [utf8_ascii ascii]
    intro b hb
    obtain ⟨c, hc, rfl⟩ := List.mem_map.1 hb
    exact ascii c hc
  obtain ⟨es, s, h1, ⟨fuel, s1, hf⟩, h3⟩ := C43_texts_read (opts := ⟨false, false⟩) ha rfl h
  obtain ⟨os, s2, h4, h5⟩ := C47_partial hE (Later.plain_ascii ascii) false y (Later.yields_calls h1 (.cons fuel hf (by simp) (.nil s1)))
  obtain ⟨es', s', g1, g2, g3⟩ := Later.follows_yields h4 h5
  exact ⟨es, es', s', g1, g2, h3, g3⟩

namespace Later

theorem block_style {l : Lazy} {o : SFlags} {s : Str} {st : MStats} {i : Nat} {f : Bool} {t : Token} (h : l = .block o s st i f) (ht : l.intoToken = .ok t) :
    ∃ v style, t = .Scalar v style ∧ (style = .Literal ∨ style = .Folded) := by
  subst h
  unfold Lazy.intoToken at ht
  obtain ⟨x, hx, ht⟩ := Out.bind_eq_ok.1 ht
  obtain ⟨t1, c1⟩ := x
  cases ht
  unfold scanBlockEager at hx
  obtain ⟨⟨a1, a2, a3⟩, _, hx⟩ := Out.bind_eq_ok.1 hx
  obtain ⟨d, _, hx⟩ := Out.bind_eq_ok.1 hx
  obtain ⟨st1, _, hx⟩ := Out.bind_eq_ok.1 hx
  obtain ⟨st2, _, hx⟩ := Out.bind_eq_ok.1 hx
  obtain ⟨v, _, hx⟩ := Out.bind_eq_ok.1 hx
  cases hx
  exact ⟨v, _, rfl, by unfold blockStyle; cases f <;> simp⟩

/-- Evaluated scalars that are not block scalars, and what is close to them. -/
theorem means_close {e e' : Event} (h : SameEvent CloseScalar e e')
    (hi : ∀ n c, e.data = .Scalar n c → ∃ s, c = .Eager s ∧ s.style ≠ .Literal ∧ s.style ≠ .Folded) : Means e' e.data := by
  cases h with
  | same => exact .same _
  | scalar h =>
    obtain ⟨s, rfl, h1, h2⟩ := hi _ _ rfl
    rcases h with ⟨t, h3, h4⟩ | ⟨v, b, style, h3, _, h5, _⟩
    · cases h3
      exact .scalar h4
    · simp only [scalarOf, Out.ok.injEq, Token.Scalar.injEq] at h5
      rcases h3 with h3 | h3
      · exact absurd (h5.2.trans h3) h1
      · exact absurd (h5.2.trans h3) h2

theorem means_pairs {es es' : List Event} (h : Pairs (SameEvent CloseScalar) es es') (hi : NoBlockScalar (es.map fun e => e.data)) :
    Pairs Means es' (es.map fun e => e.data) := by
  induction h with
  | nil => exact .nil
  | cons h _ ih =>
    refine .cons (means_close h fun n c hd => hi _ (.head _) n c hd) (ih fun v hv => hi v (.tail _ hv))

theorem means_later {e e' : Event} {v : EventData} (h : SameEvent LaterScalar e' e) (hm : Means e v)
    (hi : ∀ n c, v = .Scalar n c → ∃ s, c = .Eager s ∧ s.style ≠ .Literal ∧ s.style ≠ .Folded) : Means e' v := by
  cases h with
  | same => exact hm
  | scalar h =>
    obtain ⟨o, s, st, i, f, -, rfl, -⟩ := h
    generalize hx : (⟨_, _, .Scalar _ (.Lazy (.block { o with extendable := false } s st i f))⟩ : Event) = x at hm
    cases hm with
    | same =>
      subst hx
      obtain ⟨_, h, _⟩ := hi _ _ rfl
      cases h
    | scalar h =>
      cases hx
      obtain ⟨_, h1, h2, h3⟩ := hi _ _ rfl
      cases h1
      obtain ⟨v, style, h4, h5⟩ := block_style rfl h
      cases h4
      rcases h5 with h5 | h5
      · exact absurd h5 h2
      · exact absurd h5 h3

theorem means_laters {es es' : List Event} (h : Pairs (SameEvent LaterScalar) es' es) : ∀ {vs : List EventData}, Pairs Means es vs → NoBlockScalar vs → Pairs Means es' vs := by
  induction h with
  | nil => exact fun hm _ => hm
  | cons h _ ih =>
    intro vs hm hi
    cases hm with
    | cons hm hms => exact .cons (means_later h hm fun n c hd => hi _ (.head _) n c hd) (ih hms fun v hv => hi v (.tail _ hv))

end Later

/-- **C43** for deferred scalars, for texts in which no `\\"` and no block scalar occurs: the events of the text are those of the grammar, once the scalars
are evaluated. -/
theorem C43_deferred_inline_partial (ascii : ∀ c ∈ text, c.toNat < 128) (hE : NoEscapedBackslash text) {vs : List EventData} (h : TextStream (utf8 text) vs)
    (hi : NoBlockScalar vs) (y : Bool) :
    ∃ es s, Yields (borrowDrive ⟨y, true⟩ (utf8 text)) (start {}) es s ∧ Finished (borrowDrive ⟨y, true⟩ (utf8 text)) s ∧ Pairs Means es vs := by
  obtain ⟨es, es', s, h1, h2, rfl, h4⟩ := C43_deferred_partial ascii hE h y
  exact ⟨es', s, h1, h2, Later.means_pairs h4 hi⟩

/-- **C43** for deferred scalars, for such texts without a carriage return that are read in chunks of whatever size. -/
theorem C43_deferred_chunks_partial {size : Nat → Nat → Nat} (hsize : ∀ a b, 0 < size a b) (ascii : ∀ c ∈ text, c.toNat < 128) (hE : NoEscapedBackslash text)
    (hr : '\r' ∉ text) {vs : List EventData} (h : TextStream (utf8 text) vs) (hi : NoBlockScalar vs) (y : Bool) :
    ∃ es s, Yields (ownedDrive size ⟨y, true⟩) (start ({ source := [(utf8 text, none)] }, {})) es s ∧ Finished (ownedDrive size ⟨y, true⟩) s ∧
      Pairs Means es vs := by
  obtain ⟨es, s, h1, h2, h3⟩ := C43_deferred_inline_partial ascii hE h hi y
  obtain ⟨es', s', g1, g2, g3⟩ := C46_lazy_ends_partial hsize rfl ascii hr h1 h2
  exact ⟨es', s', g1, g2, Later.means_laters g3 h3 hi⟩

namespace Later

/-- Every backslash is followed by `U`. -/
def Coded (s : Str) : Prop := ∀ p r, s = p ++ 0x5C :: r → ∃ r', r = b! 'U' :: r'

theorem Coded.append {a b : Str} (ha : Coded a) (hb : Coded b) : Coded (a ++ b) := by
  intro p r h
  rcases List.append_eq_append_iff.1 h with ⟨x, h1, h2⟩ | ⟨x, h1, h2⟩
  · exact hb x r h2
  · cases x with
    | nil => exact hb [] r (by simpa using h2.symm)
    | cons y x =>
      simp only [List.cons_append, List.cons.injEq] at h2
      obtain ⟨rfl, rfl⟩ := h2
      obtain ⟨r', rfl⟩ := ha p x h1
      exact ⟨r' ++ b, rfl⟩

theorem coded_of {s : Str} (h : 0x5C ∉ s) : Coded s := by
  rintro p r rfl
  exact absurd (List.mem_append_right _ (.head _)) h

theorem Coded.cons {x : Byte} {s : Str} (hx : x ≠ 0x5C) (h : Coded s) : Coded (x :: s) :=
  Coded.append (a := [x]) (coded_of (by simp; exact fun h => hx h.symm)) h

theorem hex_slash : ∀ k n, 0x5C ∉ Spec.hexDigits k n
  | 0, _ => by simp [Spec.hexDigits]
  | k + 1, n => by
    have := hex_slash k (n / 16)
    simp only [Spec.hexDigits, List.mem_append, List.mem_singleton, not_or]
    refine ⟨this, ?_⟩
    split
    · intro h
      replace h : (92 : Nat) = 48 + n % 16 := h
      omega
    · intro h
      replace h : (92 : Nat) = 65 + (n % 16 - 10) := h
      omega

theorem char_coded (c : Char) : Coded (writeChar c) := by
  unfold writeChar
  split
  · next h =>
    refine coded_of ?_
    simp only [List.mem_singleton]
    intro h1
    refine h.2.2.2 ?_
    rw [← Char.ofNat_toNat c, ← h1]
  · intro p r h
    cases p with
    | nil =>
      simp only [List.nil_append, List.cons.injEq, true_and] at h
      exact ⟨_, h.symm⟩
    | cons x p =>
      simp only [List.cons_append, List.cons.injEq] at h
      refine absurd (List.mem_append_right p (.head r) : (0x5C : Byte) ∈ p ++ 0x5C :: r) ?_
      rw [← h.2]
      simp only [List.mem_cons, not_or]
      exact ⟨by decide, hex_slash 8 _⟩

theorem chars_coded : ∀ cs : List Char, Coded (cs.flatMap writeChar)
  | [] => coded_of (by simp)
  | c :: cs => by
    rw [List.flatMap_cons]
    exact (char_coded c).append (chars_coded cs)

theorem string_coded (cs : List Char) : Coded (writeString cs) :=
  .cons (by decide) ((chars_coded cs).append (coded_of (by decide)))

theorem indentation_coded (n : Nat) : Coded (indentation n) :=
  coded_of fun h => by
    have := List.eq_of_mem_replicate h
    cases this

theorem tree_coded (step : Nat) (x : Tree) : ∀ n, Coded (x.written step n) := by
  refine Tree.rec (motive_1 := fun x => ∀ n, Coded (x.written step n)) (motive_2 := fun l => ∀ n, Coded (l.written step n))
    (motive_3 := fun l => ∀ n, Coded (l.written step n)) ?_ ?_ ?_ ?_ ?_ ?_ ?_ x
  · intro cs n
    simp only [Tree.written]
    exact .cons (by decide) ((string_coded cs).append (coded_of (by decide)))
  · intro l ih n
    cases l with
    | nil => simp only [Tree.written]; exact coded_of (by decide)
    | cons y l => simp only [Tree.written]; exact .cons (by decide) (ih n)
  · intro l ih n
    cases l with
    | nil => simp only [Tree.written]; exact coded_of (by decide)
    | cons k y l => simp only [Tree.written]; exact .cons (by decide) (ih n)
  · intro n
    simp only [TreeList.written]; exact coded_of (by simp)
  · intro y l ih ih' n
    simp only [TreeList.written]
    exact (indentation_coded n).append (.cons (by decide) ((ih _).append (ih' n)))
  · intro n
    simp only [TreePairs.written]; exact coded_of (by simp)
  · intro k y l ih ih' n
    simp only [TreePairs.written]
    exact (indentation_coded n).append ((string_coded k).append (.cons (by decide) ((ih _).append (ih' n))))

theorem treeText_coded (step : Nat) (x : Tree) : Coded (treeText step x) := (coded_of (by decide)).append (tree_coded step x 0)

theorem tree_inline (x : Tree) : ∀ kind, NoBlockScalar (x.events kind) := by
  have one : ∀ kind cs, NoBlockScalar [jsonString kind cs] := by
    intro kind cs v hv n c h
    simp only [List.mem_singleton] at hv
    subst hv
    unfold jsonString at h
    cases h
    exact ⟨_, rfl, by simp, by simp⟩
  have app : ∀ {a b : List EventData}, NoBlockScalar a → NoBlockScalar b → NoBlockScalar (a ++ b) := by
    intro a b ha hb v hv
    rcases List.mem_append.1 hv with hv | hv
    · exact ha v hv
    · exact hb v hv
  have nil : NoBlockScalar [] := fun v hv => by cases hv
  have other : ∀ {d : EventData}, (∀ n c, d ≠ .Scalar n c) → NoBlockScalar [d] := by
    intro d hd v hv n c h
    simp only [List.mem_singleton] at hv
    subst hv
    exact absurd h (hd n c)
  refine Tree.rec (motive_1 := fun x => ∀ kind, NoBlockScalar (x.events kind)) (motive_2 := fun l => NoBlockScalar l.events)
    (motive_3 := fun l => NoBlockScalar l.events) ?_ ?_ ?_ ?_ ?_ ?_ ?_ x
  · intro cs kind
    simp only [Tree.events]
    exact one kind cs
  · intro l ih kind
    simp only [Tree.events]
    exact app (a := [_]) (other (by simp)) (app ih (other (by simp)))
  · intro l ih kind
    simp only [Tree.events]
    exact app (a := [_]) (other (by simp)) (app ih (other (by simp)))
  · simp only [TreeList.events]; exact nil
  · intro y l ih ih'
    simp only [TreeList.events]
    exact app (ih _) ih'
  · simp only [TreePairs.events]; exact nil
  · intro k y l ih ih'
    simp only [TreePairs.events]
    exact app (a := [_]) (one _ k) (app (ih _) ih')

theorem treeStream_inline (x : Tree) : NoBlockScalar (treeStream x) := by
  intro v hv n c h
  subst h
  simp only [treeStream, List.mem_cons, List.mem_append, reduceCtorEq, false_or, List.not_mem_nil, or_false] at hv
  exact tree_inline x _ _ hv n c rfl

/-- The characters of a tree that is written. -/
theorem tree_chars (step : Nat) (x : Tree) : ∃ cs : List Char, (∀ c ∈ cs, c.toNat < 128) ∧ treeText step x = utf8 cs ∧ NoEscapedBackslash cs := by
  obtain ⟨cs, h1, h2⟩ := ascii_chars (Reading.treeText_ascii step x)
  refine ⟨cs, h1, h2, ?_⟩
  rintro p r rfl
  rw [utf8_ascii h1] at h2
  obtain ⟨r', h⟩ := treeText_coded step x (p.map Char.toNat) (0x5C :: 0x22 :: r.map Char.toNat) (by rw [h2]; simp)
  cases h

end Later

/-- **C45** for deferred scalars: a tree that is written in block style is read as its events, once the scalars are evaluated. -/
theorem C45_tree_deferred {step : Nat} (hstep : 0 < step) {t : Tree} (hk : t.KeysFit) (y : Bool) :
    ∃ es s, Yields (borrowDrive ⟨y, true⟩ (treeText step t)) (start {}) es s ∧ Finished (borrowDrive ⟨y, true⟩ (treeText step t)) s ∧
      Pairs Means es (treeStream t) := by
  obtain ⟨cs, h1, h2, h3⟩ := Later.tree_chars step t
  have h4 := Reading.tree_text hstep t hk
  rw [h2] at h4 ⊢
  exact C43_deferred_inline_partial h1 h3 h4 (Later.treeStream_inline t) y

namespace Later

theorem return_mem {s : Str} (h : ∀ b ∈ s, b < 128 ∧ NoBrk b) : (0x0D : Byte) ∉ s := by
  intro hm
  have := (h _ hm).2
  revert this
  unfold NoBrk
  decide

theorem tree_return (step : Nat) (x : Tree) : ∀ n, (0x0D : Byte) ∉ x.written step n := by
  have app : ∀ {a b : Str}, (0x0D : Byte) ∉ a → (0x0D : Byte) ∉ b → (0x0D : Byte) ∉ a ++ b := by
    intro a b ha hb h
    rcases List.mem_append.1 h with h | h
    · exact ha h
    · exact hb h
  have con : ∀ {y : Byte} {a : Str}, y ≠ 0x0D → (0x0D : Byte) ∉ a → (0x0D : Byte) ∉ y :: a := by
    intro y a hy ha h
    rcases List.mem_cons.1 h with h | h
    · exact hy h.symm
    · exact ha h
  refine Tree.rec (motive_1 := fun x => ∀ n, (0x0D : Byte) ∉ x.written step n) (motive_2 := fun l => ∀ n, (0x0D : Byte) ∉ l.written step n)
    (motive_3 := fun l => ∀ n, (0x0D : Byte) ∉ l.written step n) ?_ ?_ ?_ ?_ ?_ ?_ ?_ x
  · intro cs n
    simp only [Tree.written]
    exact con (by decide) (app (return_mem (Reading.write_bytes cs)) (by decide))
  · intro l ih n
    cases l with
    | nil => simp only [Tree.written]; decide
    | cons y l => simp only [Tree.written]; exact con (by decide) (ih n)
  · intro l ih n
    cases l with
    | nil => simp only [Tree.written]; decide
    | cons k y l => simp only [Tree.written]; exact con (by decide) (ih n)
  · intro n
    simp [TreeList.written]
  · intro y l ih ih' n
    simp only [TreeList.written]
    exact app (return_mem (Reading.indentation_bytes n)) (con (by decide) (app (ih _) (ih' n)))
  · intro n
    simp [TreePairs.written]
  · intro k y l ih ih' n
    simp only [TreePairs.written]
    exact app (return_mem (Reading.indentation_bytes n)) (app (return_mem (Reading.write_bytes k)) (con (by decide) (app (ih _) (ih' n))))

end Later

/-- **C45** for deferred scalars, for a text that is read in chunks of whatever size. -/
theorem C45_tree_deferred_chunks {step : Nat} (hstep : 0 < step) {t : Tree} (hk : t.KeysFit) {size : Nat → Nat → Nat} (hsize : ∀ a b, 0 < size a b) (y : Bool) :
    ∃ es s, Yields (ownedDrive size ⟨y, true⟩) (start ({ source := [(treeText step t, none)] }, {})) es s ∧ Finished (ownedDrive size ⟨y, true⟩) s ∧
      Pairs Means es (treeStream t) := by
  obtain ⟨cs, h1, h2, h3⟩ := Later.tree_chars step t
  have h4 := Reading.tree_text hstep t hk
  have hr : '\r' ∉ cs := by
    intro hm
    have h5 : (0x0D : Byte) ∈ treeText step t := by
      rw [h2, utf8_ascii h1]
      exact List.mem_map.2 ⟨_, hm, rfl⟩
    unfold treeText at h5
    rcases List.mem_append.1 h5 with h | h
    · revert h
      decide
    · exact Later.tree_return step t 0 h
  rw [h2] at h4 ⊢
  exact C43_deferred_chunks_partial hsize h1 h3 hr h4 (Later.treeStream_inline t) y

/-! ### JSON -/

namespace Later

theorem json_inline {kind : NodeKind} {w : Str} {es : List EventData} (h : JsonValue kind w es) : NoBlockScalar es := by
  have one : ∀ kind cs, NoBlockScalar [jsonString kind cs] := by
    intro kind cs v hv n c h
    simp only [List.mem_singleton] at hv
    subst hv
    unfold jsonString at h
    cases h
    exact ⟨_, rfl, by simp, by simp⟩
  have word : ∀ kind cs, NoBlockScalar [jsonWord kind cs] := by
    intro kind cs v hv n c h
    simp only [List.mem_singleton] at hv
    subst hv
    unfold jsonWord at h
    cases h
    exact ⟨_, rfl, by simp, by simp⟩
  have app : ∀ {a b : List EventData}, NoBlockScalar a → NoBlockScalar b → NoBlockScalar (a ++ b) := by
    intro a b ha hb v hv
    rcases List.mem_append.1 hv with hv | hv
    · exact ha v hv
    · exact hb v hv
  have other : ∀ {d : EventData}, (∀ n c, d ≠ .Scalar n c) → NoBlockScalar [d] := by
    intro d hd v hv n c h
    simp only [List.mem_singleton] at hv
    subst hv
    exact absurd h (hd n c)
  refine JsonValue.rec (motive_1 := fun _ _ es _ => NoBlockScalar es) (motive_2 := fun _ es _ => NoBlockScalar es)
    (motive_3 := fun _ es _ => NoBlockScalar es) (motive_4 := fun _ es _ => NoBlockScalar es)
    ?_ ?_ ?_ ?_ ?_ ?_ ?_ ?_ ?_ ?_ ?_ h
  · intros; exact word _ _
  · intros; exact one _ _
  · intros; exact app (a := [_]) (other (by simp)) (other (by simp))
  · intro _ _ _ _ ih; exact app (a := [_]) (other (by simp)) (app ih (other (by simp)))
  · intros; exact app (a := [_]) (other (by simp)) (other (by simp))
  · intro _ _ _ _ ih; exact app (a := [_]) (other (by simp)) (app ih (other (by simp)))
  · intros; assumption
  · intros; apply app <;> assumption
  · intros; assumption
  · intros; apply app <;> assumption
  · intros; apply app (a := [_]) (one _ _); assumption

theorem jsonText_inline {w : Str} {es : List EventData} (h : JsonText w es) : NoBlockScalar es := by
  cases h with
  | mk _ h _ => exact json_inline h

theorem ascii_back {cs : List Char} (h : ∀ b ∈ utf8 cs, b < 128) : ∀ c ∈ cs, c.toNat < 128 := by
  obtain ⟨ds, h1, h2⟩ := ascii_chars h
  rwa [utf8_inj h2]

end Later

/-- **C44** for deferred scalars, for texts in which no `\\"` occurs: a JSON text is read as its value, once the scalars are evaluated. -/
theorem C44_deferred_partial {cs : List Char} {es : List EventData} (hE : NoEscapedBackslash cs) (h : JsonText (utf8 cs) es) (y : Bool) :
    ∃ evs s, Yields (borrowDrive ⟨y, true⟩ (utf8 cs)) (start {}) evs s ∧ Finished (borrowDrive ⟨y, true⟩ (utf8 cs)) s ∧
      Pairs Means evs (jsonStream es) := by
  have ha : ∀ c ∈ cs, c.toNat < 128 := Later.ascii_back (Reading.text_ascii h)
  refine C43_deferred_inline_partial ha hE (Reading.json_text h) ?_ y
  intro v hv n c hd
  subst hd
  refine Later.jsonText_inline h _ ?_ n c rfl
  simpa [jsonStream] using hv

/-! ### Examples -/

theorem noEscaped_of_decide {t : List Char} (h0 : ∀ i, i < t.length → (t.drop i).take 3 ≠ ['\\', '\\', '"']) : NoEscapedBackslash t := by
  intro p r h
  have h1 : (t.drop p.length).take 3 = ['\\', '\\', '"'] := by rw [h]; simp
  refine h0 p.length ?_ h1
  rw [h]; simp

/-- A text with deferred scalars of three kinds whose stream comes to its end. -/
example : let t := "a: 'b\n c'\nd: |\n  e\nf: [g]\n".toList
    (∀ c ∈ t, c.toNat < 128) ∧ '\r' ∉ t ∧ NoEscapedBackslash t ∧ ∃ es s, Yields (borrowDrive ⟨false, true⟩ (utf8 t)) (start {}) es s ∧
      Finished (borrowDrive ⟨false, true⟩ (utf8 t)) s ∧ es.length = 14 :=
  ⟨by decide, by decide, noEscaped_of_decide (by decide), _, _, collect_yields 60 14 _, finished_of 60 (by decide +kernel), by decide +kernel⟩

/-- A JSON text with an escape and without escaped backslashes. -/
example : JsonText (utf8 "[\"e\\n\"]".toList) [.SequenceStart { anchor := none, tag := none, kind := .Root }, jsonString .Entry ['e', '\n'], .SequenceEnd] ∧
    NoEscapedBackslash "[\"e\\n\"]".toList := by
  have none : JsonSpace [] := fun b hb => by cases hb
  have e : JsonString (bytes! "e\\n") ['e', '\n'] :=
    .cons (.self (c := 'e') (by decide) (by decide) (by decide)) (.cons (.letter (b := b! 'n') (c := '\n') (by decide)) .nil)
  refine ⟨?_, noEscaped_of_decide (by decide)⟩
  exact .mk (a := []) (w := bytes! "[\"e\\n\"]") (b := []) none
    (.array (w := bytes! "\"e\\n\"") (.one (a := []) (w := bytes! "\"e\\n\"") (b := []) none (.string e) none)) none

/-- A tree of two levels, how it is written, and that its scalars are deferred. -/
example : let t : Tree := .map (.cons ['a'] (.seq (.cons (.text "x\\\"|".toList) .nil)) (.cons ['f'] (.map .nil) .nil))
    t.KeysFit ∧ treeText 2 t = bytes! "---\n\"a\":\n  - \"x\\U0000005C\\U00000022|\"\n\"f\": {}\n" ∧
      (collect (borrowDrive ⟨false, true⟩ (treeText 2 t)) 60 12 (start {})).1.map (fun e => e.data) ≠ treeStream t := by
  refine ⟨?_, by decide +kernel, by decide +kernel⟩
  simp only [Tree.KeysFit, TreeList.KeysFit, TreePairs.KeysFit]
  decide

end Yary
