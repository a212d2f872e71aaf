import Mathlib.Tactic.Tauto
import Verif.Proof.Run
import Verif.Spec.Content

/-! The tokens each call takes, and the event made of them. -/

namespace Yary

open Spec PM

variable {σ : Type} {drive : Drive σ}

namespace Spec.Pops

theorem snoc_peek {p q q' : PeekReader σ} {ts : List TokenEntry} {r : Option TokenEntry}
    (h : Pops drive p ts q) (hq : q.peek drive = (.ok r, q')) : Pops drive p ts q' := by
  induction h with
  | nil => exact .peek hq (.nil _)
  | peek h' _ ih => exact .peek h' (ih hq)
  | pop h' _ ih => exact .pop h' (ih hq)

theorem snoc_pop {p q q' : PeekReader σ} {ts : List TokenEntry} {e : TokenEntry}
    (h : Pops drive p ts q) (hq : q.pop drive = (.ok (some e), q')) :
    Pops drive p (ts ++ [e]) q' := by
  induction h with
  | nil => exact .pop hq (.nil _)
  | peek h' _ ih => exact .peek h' (ih hq)
  | pop h' _ ih => exact .pop h' (ih hq)

theorem append {p q r : PeekReader σ} {ts us : List TokenEntry}
    (h : Pops drive p ts q) (h' : Pops drive q us r) : Pops drive p (ts ++ us) r := by
  induction h with
  | nil => exact h'
  | peek g _ ih => exact .peek g (ih h')
  | pop g _ ih => exact .pop g (ih h')

/-- What is peeked comes first. -/
theorem head {p q : PeekReader σ} {ts : List TokenEntry} (h : Pops drive p ts q)
    {e : TokenEntry} (hp : p.peeked = some e) : ∃ l, ts ++ q.peeked.toList = e :: l := by
  induction h with
  | nil => exact ⟨[], by simp [hp]⟩
  | peek g _ ih =>
    rw [PeekReader.peek_of_peeked hp] at g
    simp only [Prod.mk.injEq, Out.ok.injEq] at g
    obtain ⟨rfl, rfl⟩ := g
    exact ih hp
  | pop g _ ih =>
    rw [PeekReader.pop_of_peeked hp] at g
    simp only [Prod.mk.injEq, Out.ok.injEq, Option.some.injEq] at g
    obtain ⟨rfl, rfl⟩ := g
    exact ⟨_, rfl⟩

end Spec.Pops

/-- The tokens `acc` were taken since `p0`. -/
abbrev Tr (drive : Drive σ) (p0 : PeekReader σ) (acc : List TokenEntry) (s : PS σ) : Prop :=
  Pops drive p0 acc s.tokens

open Parser (srcOk_true)

theorem tr_peekMaybe {p0 : PeekReader σ} {acc : List TokenEntry} {s : PS σ}
    {Q : Option TokenEntry → PS σ → Prop} (h : Tr drive p0 acc s)
    (k : ∀ r s', s'.parser = s.parser → Tr drive p0 acc s' → s'.tokens.peeked = r →
      (∀ e0, s.tokens.peeked = some e0 → r = some e0) → Q r s') :
    wp True (peekMaybe drive) s Q := by
  refine wp_peekMaybe srcOk_true fun e t he => ?_
  refine k _ _ rfl (h.snoc_peek he) (PeekReader.peek_peeked he) ?_
  intro e0 h0
  rw [PeekReader.peek_of_peeked h0] at he
  simp only [Prod.mk.injEq, Out.ok.injEq] at he
  exact he.1.symm

theorem tr_peek {p0 : PeekReader σ} {acc : List TokenEntry} {s : PS σ}
    {Q : TokenEntry → PS σ → Prop} (h : Tr drive p0 acc s)
    (k : ∀ e s', s'.parser = s.parser → Tr drive p0 acc s' → s'.tokens.peeked = some e →
      (∀ e0, s.tokens.peeked = some e0 → e = e0) → Q e s') :
    wp True (peek drive) s Q := by
  refine wp_peek srcOk_true fun e t he => ?_
  refine k _ _ rfl (h.snoc_peek he) (PeekReader.peek_peeked he) ?_
  intro e0 h0
  rw [PeekReader.peek_of_peeked h0] at he
  simp only [Prod.mk.injEq, Out.ok.injEq, Option.some.injEq] at he
  exact he.1.symm

theorem tr_pop {p0 : PeekReader σ} {acc : List TokenEntry} {s : PS σ}
    {Q : TokenEntry → PS σ → Prop} (h : Tr drive p0 acc s)
    (k : ∀ e s', s'.parser = s.parser → Tr drive p0 (acc ++ [e]) s' →
      (∀ e0, s.tokens.peeked = some e0 → e = e0) → Q e s') :
    wp True (pop drive) s Q := by
  refine wp_pop srcOk_true fun e t he => ?_
  refine k _ _ rfl (h.snoc_pop he) ?_
  intro e0 h0
  rw [PeekReader.pop_of_peeked h0] at he
  simp only [Prod.mk.injEq, Out.ok.injEq, Option.some.injEq] at he
  exact he.1.symm

theorem tr_popP {p0 : PeekReader σ} {acc : List TokenEntry} {s : PS σ} {e : TokenEntry}
    {Q : TokenEntry → PS σ → Prop} (h : Tr drive p0 acc s) (hp : s.tokens.peeked = some e)
    (k : ∀ s', s'.parser = s.parser → Tr drive p0 (acc ++ [e]) s' → Q e s') :
    wp True (pop drive) s Q := by
  refine tr_pop h fun e' s' h1 h2 h3 => ?_
  obtain rfl := h3 _ hp
  exact k _ h1 h2

/-! ## The state stack and pending start tokens -/

/-- States inside a document. -/
def inDoc : State → Bool
  | .StreamStart | .StreamEnd | .DocumentStart _ _ | .DocumentEnd => false
  | _ => true

/-- The start token still to be taken. -/
def firstTok : State → Option Marker
  | .BlockSequenceEntry true => some .BlockSequenceStart
  | .BlockMappingKey true => some .BlockMappingStart
  | .FlowSequenceEntry true => some .FlowSequenceStart
  | .FlowMappingKey true => some .FlowMappingStart
  | _ => none

/-- Below a state inside a document there is a state to return to, with no start token pending. -/
def Good : State → List State → Prop
  | t, [] => inDoc t = false
  | t, q :: qs => inDoc t = true ∧ firstTok q = none ∧ Good q qs

theorem Good.swap {t u : State} {l : List State} (h : Good t l) (hu : inDoc u = inDoc t) :
    Good u l := by
  cases l with
  | nil => simpa [Good, hu] using h
  | cons q qs => simpa [Good, hu] using h

theorem Good.ne {t : State} {l : List State} (h : Good t l) (ht : inDoc t = true) :
    ∃ q qs, l = q :: qs ∧ firstTok q = none ∧ Good q qs := by
  cases l with
  | nil => simp [Good, ht] at h
  | cons q qs => exact ⟨q, qs, rfl, h.2⟩

/-- The invariant between calls. -/
structure First (s : PS σ) : Prop where
  good : Good s.parser.state.top s.parser.state.stack
  tok : ∀ m, firstTok s.parser.state.top = some m →
    ∃ e, s.tokens.peeked = some e ∧ e.marker = m

/-- The marks of `e` are positions of tokens in `l`, in order if those are. -/
def Marked (l : List TokenEntry) (e : Event) : Prop :=
  (∃ x ∈ l, e.start = x.readAt) ∧ (∃ x ∈ l, e.stop = x.readAt) ∧
  ((l.map (·.readAt)).Pairwise (· ≤ ·) → e.start ≤ e.stop)

theorem Marked.same {l : List TokenEntry} {x : TokenEntry} (h : x ∈ l) {e : Event}
    (h1 : e.start = x.readAt) (h2 : e.stop = x.readAt) : Marked l e :=
  ⟨⟨x, h, h1⟩, ⟨x, h, h2⟩, fun _ => by omega⟩

/-- First mark from the tokens up to `y`, second mark from `y`. -/
theorem Marked.upto {l₁ l₂ : List TokenEntry} {x y : TokenEntry} (h : x ∈ l₁ ++ [y]) {e : Event}
    (h1 : e.start = x.readAt) (h2 : e.stop = y.readAt) : Marked (l₁ ++ y :: l₂) e := by
  refine ⟨⟨x, ?_, h1⟩, ⟨y, by simp, h2⟩, fun hs => ?_⟩
  · simp only [List.mem_append, List.mem_singleton, List.mem_cons] at h ⊢; tauto
  · rw [h1, h2]
    simp only [List.map_append, List.map_cons, List.pairwise_append, List.mem_map,
      List.mem_cons] at hs
    simp only [List.mem_append, List.mem_singleton] at h
    rcases h with h | rfl
    · exact hs.2.2 _ ⟨x, h, rfl⟩ _ (Or.inl rfl)
    · exact Nat.le_refl _

/-- What a transition does with tokens. -/
def OkEv (drive : Drive σ) (p0 : PeekReader σ) (ev : Option Event) (s' : PS σ) : Prop :=
  First s' ∧ ∃ ts, Pops drive p0 ts s'.tokens ∧
    match ev with
    | none => ts = [] ∨ s'.parser.state.top = .StreamEnd ∧ ∀ t ∈ ts, t.marker = .DocumentEnd
    | some e => Explains ts e.data ∧ Marked (ts ++ s'.tokens.peeked.toList) e

theorem carry_nil : Carry [] [] := ⟨rfl, by simp⟩

theorem Spec.Carry.snoc {ts : List TokenEntry} {ps : List Piece} (h : Carry ts ps) {t : TokenEntry}
    (ht : pieces t ≠ [] ∨ structural t = true) : Carry (ts ++ [t]) (ps ++ pieces t) := by
  refine ⟨by simp [h.1], ?_⟩
  intro u hu
  simp only [List.mem_append, List.mem_singleton] at hu
  rcases hu with hu | rfl
  · exact h.2 _ hu
  · exact ht

theorem pieces_of_structural {t : TokenEntry} (h : structural t = true) : pieces t = [] := by
  obtain ⟨w, r⟩ := t
  rcases w with w | l
  · cases w <;> simp_all [structural, structuralMarker, pieces, TokenEntry.marker, MaybeToken.marker, Marker.ofToken]
  · simp [structural, structuralMarker, TokenEntry.marker, MaybeToken.marker] at h

theorem Spec.Carry.struct {ts : List TokenEntry} {ps : List Piece} (h : Carry ts ps) {t : TokenEntry}
    (ht : structural t = true) : Carry (ts ++ [t]) ps := by
  have := h.snoc (t := t) (Or.inr ht)
  rwa [pieces_of_structural ht, List.append_nil] at this

theorem pieces_anchor {e : TokenEntry} {a : Str} (h : e.wrap = .Token (.Anchor a)) :
    pieces e = [.anchor a] := by simp [pieces, h]
theorem pieces_tag {e : TokenEntry} {a b : Str} (h : e.wrap = .Token (.Tag a b)) :
    pieces e = [.tag a b] := by simp [pieces, h]

/-- `Explains` before the tag check. -/
def PreExplains (ts : List TokenEntry) : EventData → Prop
  | .Alias name => Carry ts [.alias name]
  | .Scalar node c => ∃ ps, Props ps node.anchor node.tag ∧
      (Carry ts (ps ++ [.scalar c]) ∨ Carry ts ps ∧ c = .empty)
  | .SequenceStart node => ∃ ps, Props ps node.anchor node.tag ∧ Carry ts ps
  | .MappingStart node => ∃ ps, Props ps node.anchor node.tag ∧ Carry ts ps
  | _ => False

namespace Parser

theorem fetchAnchor_tr {p0 : PeekReader σ} {acc : List TokenEntry} {ps : List Piece} {s : PS σ}
    (h : Tr drive p0 acc s) (hc : Carry acc ps) {n : Nat} {x : TokenEntry}
    (hx : x ∈ acc ++ s.tokens.peeked.toList) (hn : n = x.readAt) :
    wp True (fetchAnchor drive n) s fun r s' => s'.parser = s.parser ∧
      ∃ acc', Tr drive p0 acc' s' ∧ Carry acc' (ps ++ r.2.toList.map .anchor) ∧
        ∃ y ∈ acc' ++ s'.tokens.peeked.toList, r.1 = y.readAt := by
  unfold fetchAnchor
  rw [wp_bind]
  refine tr_peekMaybe h fun r s1 h1 h2 h3 h4 => ?_
  have hx' : x ∈ acc ++ s1.tokens.peeked.toList := by
    simp only [List.mem_append, Option.mem_toList, Option.mem_def] at hx ⊢
    rcases hx with hx | hx
    · exact Or.inl hx
    · exact Or.inr (by rw [h3]; exact h4 _ hx)
  cases r with
  | none => exact ⟨h1, acc, h2, by simpa using hc, x, hx', hn⟩
  | some e =>
    simp only
    split
    · next hm =>
      obtain ⟨a, hw⟩ := marker_anchor hm
      unfold consumeAnchor
      rw [wp_bind, wp_bind]
      refine tr_popP h2 h3 fun s2 g1 g2 => ?_
      rw [hw]
      simp only [wp_pure]
      refine ⟨g1.trans h1, _, g2, ?_, e, by simp, rfl⟩
      have := hc.snoc (t := e) (by simp [pieces_anchor hw])
      rwa [pieces_anchor hw] at this
    · exact ⟨h1, acc, h2, by simpa using hc, x, hx', hn⟩

theorem fetchTag_tr {p0 : PeekReader σ} {acc : List TokenEntry} {ps : List Piece} {s : PS σ}
    (h : Tr drive p0 acc s) (hc : Carry acc ps) {n : Nat} {x : TokenEntry}
    (hx : x ∈ acc ++ s.tokens.peeked.toList) (hn : n = x.readAt) :
    wp True (fetchTag drive n) s fun r s' => s'.parser = s.parser ∧
      ∃ acc', Tr drive p0 acc' s' ∧ Carry acc' (ps ++ r.2.toList.map fun t => .tag t.1 t.2) ∧
        ∃ y ∈ acc' ++ s'.tokens.peeked.toList, r.1 = y.readAt := by
  unfold fetchTag
  rw [wp_bind]
  refine tr_peekMaybe h fun r s1 h1 h2 h3 h4 => ?_
  have hx' : x ∈ acc ++ s1.tokens.peeked.toList := by
    simp only [List.mem_append, Option.mem_toList, Option.mem_def] at hx ⊢
    rcases hx with hx | hx
    · exact Or.inl hx
    · exact Or.inr (by rw [h3]; exact h4 _ hx)
  cases r with
  | none => exact ⟨h1, acc, h2, by simpa using hc, x, hx', hn⟩
  | some e =>
    simp only
    split
    · next hm =>
      obtain ⟨a, b, hw⟩ := marker_tag hm
      unfold consumeTag
      rw [wp_bind, wp_bind]
      refine tr_popP h2 h3 fun s2 g1 g2 => ?_
      rw [hw]
      simp only [wp_pure]
      refine ⟨g1.trans h1, _, g2, ?_, e, by simp, rfl⟩
      have := hc.snoc (t := e) (by simp [pieces_tag hw])
      rwa [pieces_tag hw] at this
    · exact ⟨h1, acc, h2, by simpa using hc, x, hx', hn⟩

theorem nodeProperties_tr {p0 : PeekReader σ} {acc : List TokenEntry} {s : PS σ}
    (h : Tr drive p0 acc s) (hc : Carry acc []) {m : Marker} {n : Nat} {x : TokenEntry}
    (hx : x ∈ acc ++ s.tokens.peeked.toList) (hn : n = x.readAt) :
    wp True (nodeProperties drive m n) s fun r s' => s'.parser = s.parser ∧
      ∃ acc' ps, Tr drive p0 acc' s' ∧ Carry acc' ps ∧ Props ps r.2.1 r.2.2 ∧
        ∃ y ∈ acc' ++ s'.tokens.peeked.toList, r.1 = y.readAt := by
  unfold nodeProperties
  split
  · rw [wp_bind]
    refine wp_mono (fetchAnchor_tr h hc hx hn) ?_
    rintro ⟨n1, a⟩ s1 ⟨h1, acc1, h2, h3, y, hy, hy'⟩
    rw [wp_bind]
    refine wp_mono (fetchTag_tr h2 h3 hy hy') ?_
    rintro ⟨n2, t⟩ s2 ⟨g1, acc2, g2, g3, z, hz, hz'⟩
    simp only [wp_pure]
    exact ⟨g1.trans h1, acc2, _, g2, g3, Or.inl (by simp), z, hz, hz'⟩
  · rw [wp_bind]
    refine wp_mono (fetchTag_tr h hc hx hn) ?_
    rintro ⟨n1, a⟩ s1 ⟨h1, acc1, h2, h3, y, hy, hy'⟩
    rw [wp_bind]
    refine wp_mono (fetchAnchor_tr h2 h3 hy hy') ?_
    rintro ⟨n2, t⟩ s2 ⟨g1, acc2, g2, g3, z, hz, hz'⟩
    simp only [wp_pure]
    exact ⟨g1.trans h1, acc2, _, g2, g3, Or.inr (by simp), z, hz, hz'⟩
  · exact ⟨rfl, acc, [], h, hc, Or.inl (by simp), x, hx, hn⟩

/-- Result of `nodeContent` and `nodeEvent`. -/
def OkNode (drive : Drive σ) (p0 : PeekReader σ) (ev : Event) (s' : PS σ) : Prop :=
  First s' ∧ ∃ ts, Pops drive p0 ts s'.tokens ∧ PreExplains ts ev.data ∧
    Marked (ts ++ s'.tokens.peeked.toList) ev

theorem First.pop {s : PS σ} {t : PeekReader σ}
    (hg : Good s.parser.state.top s.parser.state.stack) (hi : inDoc s.parser.state.top = true)
    {p : Parser} (hp : p.state = s.parser.state.pop) : First ⟨p, t⟩ := by
  obtain ⟨q, qs, hl, hf, hq⟩ := hg.ne hi
  have hpop : s.parser.state.pop = ⟨q, qs⟩ := by
    cases hm : s.parser.state with
    | mk a b => simp only [hm] at hl; subst hl; rfl
  constructor
  · simp only [hp, hpop]; exact hq
  · simp [hp, hpop, hf]

theorem First.set {s : PS σ} {t : PeekReader σ} {u : State}
    (hg : Good s.parser.state.top s.parser.state.stack)
    (hi : inDoc s.parser.state.top = true) {p : Parser} (hp : p.state = s.parser.state.setTop u)
    (hu : inDoc u = true)
    (ht : ∀ m, firstTok u = some m → ∃ e, t.peeked = some e ∧ e.marker = m) : First ⟨p, t⟩ := by
  constructor
  · simp only [hp, StateMachine.setTop]
    exact hg.swap (by rw [hu, hi])
  · simpa [hp, StateMachine.setTop] using ht

theorem nodeContent_tr {p0 : PeekReader σ} {acc : List TokenEntry} {s : PS σ} {ps : List Piece}
    (h : Tr drive p0 acc s) (hc : Carry acc ps)
    {block : Bool} {k : NodeKind} {n : Nat} {anchor : Option Str} {tag : Option (Str × Str)}
    (hps : Props ps anchor tag)
    (hg : Good s.parser.state.top s.parser.state.stack) (hi : inDoc s.parser.state.top = true)
    {x : TokenEntry} (hx : x ∈ acc ++ s.tokens.peeked.toList) (hn : n = x.readAt) :
    wp True (nodeContent drive block k n anchor tag) s (OkNode drive p0) := by
  unfold nodeContent
  rw [wp_bind]
  refine tr_peek h fun e s1 h1 h2 h3 h4 => ?_
  have hx' : x ∈ acc ++ [e] := by
    simp only [List.mem_append, Option.mem_toList, Option.mem_def, List.mem_singleton] at hx ⊢
    rcases hx with hx | hx
    · exact Or.inl hx
    · exact Or.inr (h4 _ hx).symm
  rw [← h1] at hg hi
  simp only
  have himpl : wp True
      (if (anchor.isSome || tag.isSome) = true then do
        popState
        pure { start := n, stop := e.readAt
               data := .Scalar { anchor, tag, kind := k } ScalarLike.empty }
      else (SO.fail .MissingNode : PM σ Event)) s1 (OkNode drive p0) := by
    split
    · simp only [wp_bind, wp_popState, wp_pure]
      refine ⟨First.pop hg hi rfl, acc, h2, ⟨ps, hps, Or.inr ⟨hc, rfl⟩⟩, ?_⟩
      simp only [h3]
      exact Marked.upto hx' hn rfl
    · simp
  split
  · next hm =>
    simp only [wp_bind, wp_setTop, wp_pure]
    refine ⟨First.set hg hi rfl rfl ?_, acc, h2, ⟨ps, hps, hc⟩, ?_⟩
    · intro m hm'
      simp only [firstTok, Option.some.injEq] at hm'
      exact ⟨e, h3, hm.trans hm'⟩
    · simp only [h3]
      exact Marked.upto hx' hn rfl
  · next hm =>
    simp only [wp_bind, wp_setTop, wp_pure]
    refine ⟨First.set hg hi rfl rfl ?_, acc, h2, ⟨ps, hps, hc⟩, ?_⟩
    · intro m hm'
      simp only [firstTok, Option.some.injEq] at hm'
      exact ⟨e, h3, hm.trans hm'⟩
    · simp only [h3]
      exact Marked.upto hx' hn rfl
  · next hm =>
    split
    · simp only [wp_bind, wp_setTop, wp_pure]
      refine ⟨First.set hg hi rfl rfl ?_, acc, h2, ⟨ps, hps, hc⟩, ?_⟩
      · intro m hm'
        simp only [firstTok, Option.some.injEq] at hm'
        exact ⟨e, h3, hm.trans hm'⟩
      · simp only [h3]
        exact Marked.upto hx' hn rfl
    · exact himpl
  · next hm =>
    split
    · simp only [wp_bind, wp_setTop, wp_pure]
      refine ⟨First.set hg hi rfl rfl ?_, acc, h2, ⟨ps, hps, hc⟩, ?_⟩
      · intro m hm'
        simp only [firstTok, Option.some.injEq] at hm'
        exact ⟨e, h3, hm.trans hm'⟩
      · simp only [h3]
        exact Marked.upto hx' hn rfl
    · exact himpl
  · next hm =>
    rw [wp_bind]
    unfold consumeScalar
    rw [wp_bind]
    refine tr_popP h2 h3 fun s2 g1 g2 => ?_
    rw [← g1] at hg hi
    rcases marker_scalar hm with ⟨d, st, hw⟩ | ⟨l, hw⟩
    · rw [hw]
      simp only [wp_bind, wp_popState, wp_pure]
      have hp : pieces e = [.scalar (.Eager { data := d, style := st })] := by simp [pieces, hw]
      have hc' := hc.snoc (t := e) (by simp [hp])
      rw [hp] at hc'
      refine ⟨First.pop hg hi rfl, _, g2, ⟨ps, hps, Or.inl hc'⟩, ?_⟩
      rw [List.append_assoc]
      exact Marked.upto hx' hn rfl
    · rw [hw]
      simp only [wp_bind, wp_popState, wp_pure]
      have hp : pieces e = [.scalar (.Lazy l)] := by simp [pieces, hw]
      have hc' := hc.snoc (t := e) (by simp [hp])
      rw [hp] at hc'
      refine ⟨First.pop hg hi rfl, _, g2, ⟨ps, hps, Or.inl hc'⟩, ?_⟩
      rw [List.append_assoc]
      exact Marked.upto hx' hn rfl
  · exact himpl

theorem nodeEvent_tr {p0 : PeekReader σ} {acc : List TokenEntry} {s : PS σ}
    (h : Tr drive p0 acc s) (hc : Carry acc []) {block : Bool} {k : NodeKind}
    (hg : Good s.parser.state.top s.parser.state.stack) (hi : inDoc s.parser.state.top = true) :
    wp True (nodeEvent drive block k) s (OkNode drive p0) := by
  unfold nodeEvent
  rw [wp_bind]
  refine tr_peek h fun e s1 h1 h2 h3 h4 => ?_
  rw [← h1] at hg hi
  split
  · next hm =>
    obtain ⟨a, hw⟩ := marker_alias hm
    rw [wp_bind, wp_popState, wp_bind]
    unfold consumeAlias
    rw [wp_bind]
    refine tr_popP (acc := acc) (e := e) h2 h3 fun s2 g1 g2 => ?_
    rw [hw]
    simp only [wp_pure]
    have hp : pieces e = [.alias a] := by simp [pieces, hw]
    have hc' := hc.snoc (t := e) (by simp [hp])
    rw [hp] at hc'
    refine ⟨?_, _, g2, hc', Marked.same (x := e) (by simp) rfl rfl⟩
    exact First.pop (s := s1) hg hi (by rw [g1])
  · rw [wp_bind]
    refine wp_mono (nodeProperties_tr (x := e) h2 hc (by simp [h3]) rfl) ?_
    rintro ⟨n, a, t⟩ s2 ⟨g1, acc2, ps, g2, g3, g4, y, hy, hy'⟩
    rw [← g1] at hg hi
    exact nodeContent_tr g2 g3 g4 hg hi hy hy'

theorem validateTag_kept {tags : TagMap} {tag : Option (Str × Str)} {sc : Bool}
    {r : Option (Str × Str)} (h : validateTag tags tag sc = .ok r) :
    r = tag ∨ sc = true ∧ r = none ∧ tag = some (bytes! "!", []) := by
  unfold validateTag at h
  split at h
  · simp only [Out.ok.injEq] at h
    exact Or.inl h.symm
  · next a b =>
    simp only at h
    split at h
    · next hc =>
      simp only [Out.ok.injEq] at h
      simp only [Bool.not_not, Bool.and_eq_true, beq_iff_eq, List.isEmpty_iff] at hc
      exact Or.inr ⟨hc.1, h.symm, by rw [hc.2.1, hc.2.2]⟩
    · split at h
      · simp at h
      · simp only [Out.ok.injEq] at h
        exact Or.inl h.symm

theorem validateEventTag_explains {tags : TagMap} {e e' : Event}
    (h : validateEventTag tags e = .ok e') {ts : List TokenEntry} (hp : PreExplains ts e.data) :
    Explains ts e'.data ∧ e'.start = e.start ∧ e'.stop = e.stop := by
  obtain ⟨es, ee, ed⟩ := e
  unfold validateEventTag at h
  cases ed with
  | Scalar node c =>
    simp only [Out.bind_eq_ok, Out.pure_eq, Out.ok.injEq] at h
    obtain ⟨r, hr, rfl⟩ := h
    obtain ⟨ps, h1, h2⟩ := hp
    refine ⟨⟨ps, node.tag, h1, ?_, h2⟩, rfl, rfl⟩
    rcases validateTag_kept hr with h | ⟨_, h, h'⟩
    · exact Or.inl h
    · exact Or.inr ⟨h, h'⟩
  | SequenceStart node =>
    simp only [Out.bind_eq_ok, Out.pure_eq, Out.ok.injEq] at h
    obtain ⟨r, hr, rfl⟩ := h
    obtain ⟨ps, h1, h2⟩ := hp
    rcases validateTag_kept hr with h | ⟨h, _⟩
    · subst h; exact ⟨⟨ps, h1, h2⟩, rfl, rfl⟩
    · simp at h
  | MappingStart node =>
    simp only [Out.bind_eq_ok, Out.pure_eq, Out.ok.injEq] at h
    obtain ⟨r, hr, rfl⟩ := h
    obtain ⟨ps, h1, h2⟩ := hp
    rcases validateTag_kept hr with h | ⟨h, _⟩
    · subst h; exact ⟨⟨ps, h1, h2⟩, rfl, rfl⟩
    · simp at h
  | Alias name =>
    simp only [Out.pure_eq, Out.ok.injEq] at h
    subst h
    exact ⟨hp, rfl, rfl⟩
  | _ => exact absurd hp (by simp [PreExplains])

theorem node_tr {p0 : PeekReader σ} {acc : List TokenEntry} {s : PS σ}
    (h : Tr drive p0 acc s) (hc : Carry acc []) {block : Bool} {k : NodeKind}
    (hg : Good s.parser.state.top s.parser.state.stack) (hi : inDoc s.parser.state.top = true) :
    wp True (node drive block k) s (OkEv drive p0) := by
  unfold node
  rw [wp_bind]
  refine wp_mono (nodeEvent_tr h hc hg hi) ?_
  rintro ev s' ⟨hf, ts, h1, h2, h3⟩
  rw [wp_bind, wp_get, wp_bind, wp_lift]
  cases hv : validateEventTag s'.parser.directives.tags ev with
  | ok e' =>
    obtain ⟨g1, g2, g3⟩ := validateEventTag_explains hv h2
    simp only [wp_pure]
    refine ⟨hf, ts, h1, g1, ?_⟩
    obtain ⟨m1, m2, m3⟩ := h3
    exact ⟨by rw [g2]; exact m1, by rw [g3]; exact m2, by rw [g2, g3]; exact m3⟩
  | err => trivial
  | panic => trivial
  | diverge => trivial

/-- `node` after a state push. -/
theorem node_push_tr {p0 : PeekReader σ} {acc : List TokenEntry} {s s1 : PS σ} {u : State}
    (h : Tr drive p0 acc s1) (hc : Carry acc []) {block : Bool} {k : NodeKind}
    (hs : s1.parser = s.parser)
    (hg : Good s.parser.state.top s.parser.state.stack) (hi : inDoc s.parser.state.top = true)
    (hu : inDoc u = true) (hf : firstTok u = none) :
    wp True (do pushState u; node drive block k) s1 (OkEv drive p0) := by
  rw [wp_bind, wp_pushState]
  refine node_tr (s := { s1 with parser := { s1.parser with state := s1.parser.state.push u } })
    (acc := acc) h hc ?_ ?_
  · simp only [StateMachine.push, hs]
    exact ⟨hi, hf, hg.swap (by rw [hu, hi])⟩
  · simpa [StateMachine.push, hs] using hi

/-- A simple event that moves to `u`. -/
theorem simple_tr {p0 : PeekReader σ} {acc : List TokenEntry} {s s1 : PS σ} {u : State}
    (h : Tr drive p0 acc s1) (hs : s1.parser = s.parser)
    (hg : Good s.parser.state.top s.parser.state.stack)
    (hu : inDoc u = inDoc s.parser.state.top) (hf : firstTok u = none) {e : Event}
    (he : Explains acc e.data) {x : TokenEntry} (hx : x ∈ acc ++ s1.tokens.peeked.toList)
    (h1 : e.start = x.readAt) (h2 : e.stop = x.readAt) :
    wp True (do setTop u; pure (some e)) s1 (OkEv drive p0) := by
  simp only [wp_bind, wp_setTop, wp_pure]
  refine ⟨⟨?_, ?_⟩, acc, h, he, Marked.same hx h1 h2⟩
  · simp only [StateMachine.setTop, hs]
    exact hg.swap hu
  · simp [StateMachine.setTop, hf]

theorem explains_empty {ts : List TokenEntry} (h : Carry ts []) {n : Nat} {k : NodeKind} :
    Explains ts (emptyScalar n k).data :=
  ⟨[], none, Or.inl rfl, Or.inl rfl, Or.inr ⟨h, rfl⟩⟩

/-- A collection end. -/
theorem end_tr {p0 : PeekReader σ} {acc : List TokenEntry} {s s1 : PS σ}
    (h : Tr drive p0 acc s1) (hs : s1.parser = s.parser)
    (hg : Good s.parser.state.top s.parser.state.stack) (hi : inDoc s.parser.state.top = true)
    {e : Event} (he : Explains acc e.data) {x : TokenEntry}
    (hx : x ∈ acc ++ s1.tokens.peeked.toList)
    (h1 : e.start = x.readAt) (h2 : e.stop = x.readAt) :
    wp True (do popState; pure (some e)) s1 (OkEv drive p0) := by
  simp only [wp_bind, wp_popState, wp_pure]
  refine ⟨First.pop hg hi (by simp [hs]), acc, h, he, Marked.same hx h1 h2⟩

theorem structural_of {e : TokenEntry} {m : Marker} (h : e.marker = m)
    (hm : structuralMarker m = true) : structural e = true := by
  simp only [structural, h, hm]

/-- Taking the pending start token. -/
theorem popFirst_tr {s : PS σ} {b : Bool} {m : Marker} (hf : First s)
    (hb : b = true → firstTok s.parser.state.top = some m)
    (hm : ∀ e : TokenEntry, e.marker = m → structural e = true) :
    wp True (popFirst drive b) s fun _ s' => s'.parser = s.parser ∧
      ∃ acc, Tr drive s.tokens acc s' ∧ Carry acc [] := by
  unfold popFirst
  split
  · next hb' =>
    obtain ⟨e, he, hem⟩ := hf.tok _ (hb hb')
    rw [wp_bind]
    refine tr_popP (Pops.nil _) he fun s1 h1 h2 => ?_
    exact ⟨h1, _, h2, carry_nil.struct (hm _ hem)⟩
  · exact ⟨rfl, [], .nil _, carry_nil⟩

theorem peekPopFirst_tr {s : PS σ} {b : Bool} {m : Marker} (hf : First s)
    (hb : b = true → firstTok s.parser.state.top = some m)
    (hm : ∀ e : TokenEntry, e.marker = m → structural e = true) :
    wp True (peekPopFirst drive b) s fun _ s' => s'.parser = s.parser ∧
      ∃ acc, Tr drive s.tokens acc s' ∧ Carry acc [] := by
  unfold peekPopFirst
  split
  · next hb' =>
    obtain ⟨e, he, hem⟩ := hf.tok _ (hb hb')
    rw [wp_bind]
    refine tr_peek (Pops.nil _) fun e1 s1 h1 h2 h3 h4 => ?_
    obtain rfl := h4 _ he
    rw [wp_bind]
    refine tr_popP h2 h3 fun s2 g1 g2 => ?_
    exact ⟨g1.trans h1, _, g2, carry_nil.struct (hm _ hem)⟩
  · exact ⟨rfl, [], .nil _, carry_nil⟩

theorem popFlowEntry_tr {p0 : PeekReader σ} {acc : List TokenEntry} {s : PS σ} {b : Bool}
    {e : TokenEntry} {er : ParseError} (h : Tr drive p0 acc s) (hc : Carry acc [])
    (hp : s.tokens.peeked = some e) :
    wp True (popFlowEntry drive b e er) s fun _ s' => s'.parser = s.parser ∧
      ∃ acc, Tr drive p0 acc s' ∧ Carry acc [] := by
  unfold popFlowEntry
  split
  · exact ⟨rfl, acc, h, hc⟩
  · split
    · next hm =>
      rw [wp_bind]
      refine tr_popP h hp fun s1 h1 h2 => ?_
      exact ⟨h1, _, h2, hc.struct (structural_of hm rfl)⟩
    · simp

variable {s : PS σ}

theorem blockSequenceEntry_tr (hf : First s) {b : Bool} {ss : List State}
    (hst : s.parser.state = ⟨.BlockSequenceEntry b, ss⟩) :
    wp True (blockSequenceEntry drive b) s (OkEv drive s.tokens) := by
  have hg := hf.good
  have hi : inDoc s.parser.state.top = true := by rw [hst]; rfl
  unfold blockSequenceEntry
  rw [wp_bind]
  refine wp_mono (popFirst_tr (m := .BlockSequenceStart) hf (by rw [hst]; rintro rfl; rfl)
    fun e h => structural_of h rfl) ?_
  rintro _ s1 ⟨h1, acc, h2, hc⟩
  rw [wp_bind]
  refine tr_peek h2 fun e s2 g1 g2 g3 _ => ?_
  split
  · next hm =>
    have hc' := hc.struct (structural_of hm rfl)
    rw [wp_bind]
    refine tr_popP g2 g3 fun s3 k1 k2 => ?_
    rw [wp_bind]
    refine tr_peek k2 fun e' s4 l1 l2 l3 _ => ?_
    split
    · exact simple_tr l2 (by simp [*]) hg (by simp [hst, inDoc]) rfl (explains_empty hc')
        (x := e) (by simp) rfl rfl
    · exact node_push_tr l2 hc' (by simp [*]) hg hi rfl rfl
  · next hm =>
    have hc' := hc.struct (structural_of hm rfl)
    rw [wp_bind]
    refine tr_popP g2 g3 fun s3 k1 k2 => ?_
    exact end_tr k2 (by simp [*]) hg hi hc' (x := e) (by simp) rfl rfl
  · simp

theorem blockMappingKey_tr (hf : First s) {b : Bool} {ss : List State}
    (hst : s.parser.state = ⟨.BlockMappingKey b, ss⟩) :
    wp True (blockMappingKey drive b) s (OkEv drive s.tokens) := by
  have hg := hf.good
  have hi : inDoc s.parser.state.top = true := by rw [hst]; rfl
  unfold blockMappingKey
  rw [wp_bind]
  refine wp_mono (peekPopFirst_tr (m := .BlockMappingStart) hf (by rw [hst]; rintro rfl; rfl)
    fun e h => structural_of h rfl) ?_
  rintro _ s1 ⟨h1, acc, h2, hc⟩
  rw [wp_bind]
  refine tr_peek h2 fun e s2 g1 g2 g3 _ => ?_
  split
  · next hm =>
    have hc' := hc.struct (structural_of hm rfl)
    rw [wp_bind]
    refine tr_popP g2 g3 fun s3 k1 k2 => ?_
    rw [wp_bind]
    refine tr_peek k2 fun e' s4 l1 l2 l3 _ => ?_
    split
    · exact node_push_tr l2 hc' (by simp [*]) hg hi rfl rfl
    · exact simple_tr l2 (by simp [*]) hg (by simp [hst, inDoc]) rfl (explains_empty hc')
        (x := e') (by simp [l3]) rfl rfl
  · next hm =>
    have hc' := hc.struct (structural_of hm rfl)
    rw [wp_bind]
    refine tr_popP g2 g3 fun s3 k1 k2 => ?_
    exact end_tr k2 (by simp [*]) hg hi hc' (x := e) (by simp) rfl rfl
  · simp

theorem blockMappingValue_tr (hf : First s) {ss : List State}
    (hst : s.parser.state = ⟨.BlockMappingValue, ss⟩) :
    wp True (blockMappingValue drive) s (OkEv drive s.tokens) := by
  have hg := hf.good
  have hi : inDoc s.parser.state.top = true := by rw [hst]; rfl
  unfold blockMappingValue
  rw [wp_bind]
  refine tr_peek (Pops.nil _) fun e s2 g1 g2 g3 _ => ?_
  split
  · next hm =>
    have hc' := carry_nil.struct (structural_of hm rfl)
    rw [wp_bind]
    refine tr_popP g2 g3 fun s3 k1 k2 => ?_
    rw [wp_bind]
    refine tr_peek k2 fun e' s4 l1 l2 l3 _ => ?_
    split
    · exact node_push_tr l2 hc' (by simp [*]) hg hi rfl rfl
    · exact simple_tr l2 (by simp [*]) hg (by simp [hst, inDoc]) rfl (explains_empty hc')
        (x := e') (by simp [l3]) rfl rfl
  · exact simple_tr g2 (by simp [*]) hg (by simp [hst, inDoc]) rfl (explains_empty carry_nil)
        (x := e) (by simp [g3]) rfl rfl

theorem fetchSequenceEnd_tr {p0 : PeekReader σ} {acc : List TokenEntry} {s1 : PS σ}
    {e : TokenEntry} (h : Tr drive p0 acc s1) (hc : Carry acc []) (hs : s1.parser = s.parser)
    (hg : Good s.parser.state.top s.parser.state.stack) (hi : inDoc s.parser.state.top = true)
    (hp : s1.tokens.peeked = some e) (hm : e.marker = .FlowSequenceEnd) :
    wp True (do let ev ← fetchSequenceEnd drive e.readAt e.readAt; pure (some ev)) s1
      (OkEv drive p0) := by
  unfold fetchSequenceEnd
  simp only [wp_bind, wp_popState]
  refine tr_popP (acc := acc) (e := e) h hp fun s2 g1 g2 => ?_
  simp only [wp_pure]
  exact ⟨First.pop hg hi (by simp [g1, hs]), _, g2, hc.struct (structural_of hm rfl),
    Marked.same (x := e) (by simp) rfl rfl⟩

theorem fetchMappingEnd_tr {p0 : PeekReader σ} {acc : List TokenEntry} {s1 : PS σ}
    {e : TokenEntry} (h : Tr drive p0 acc s1) (hc : Carry acc []) (hs : s1.parser = s.parser)
    (hg : Good s.parser.state.top s.parser.state.stack) (hi : inDoc s.parser.state.top = true)
    (hp : s1.tokens.peeked = some e) (hm : e.marker = .FlowMappingEnd) :
    wp True (do let ev ← fetchMappingEnd drive e.readAt e.readAt; pure (some ev)) s1
      (OkEv drive p0) := by
  unfold fetchMappingEnd
  simp only [wp_bind, wp_popState]
  refine tr_popP (acc := acc) (e := e) h hp fun s2 g1 g2 => ?_
  simp only [wp_pure]
  exact ⟨First.pop hg hi (by simp [g1, hs]), _, g2, hc.struct (structural_of hm rfl),
    Marked.same (x := e) (by simp) rfl rfl⟩

theorem flowSequenceEntry_tr (hf : First s) {b : Bool} {ss : List State}
    (hst : s.parser.state = ⟨.FlowSequenceEntry b, ss⟩) :
    wp True (flowSequenceEntry drive b) s (OkEv drive s.tokens) := by
  have hg := hf.good
  have hi : inDoc s.parser.state.top = true := by rw [hst]; rfl
  unfold flowSequenceEntry
  rw [wp_bind]
  refine wp_mono (popFirst_tr (m := .FlowSequenceStart) hf (by rw [hst]; rintro rfl; rfl)
    fun e h => structural_of h rfl) ?_
  rintro _ s1 ⟨h1, acc, h2, hc⟩
  rw [wp_bind]
  refine tr_peek h2 fun e s2 g1 g2 g3 _ => ?_
  split
  · rw [wp_bind]
    refine wp_mono (popFlowEntry_tr g2 hc g3) ?_
    rintro _ s3 ⟨k1, acc3, k2, hc3⟩
    rw [wp_bind]
    refine tr_peek k2 fun e' s4 l1 l2 l3 _ => ?_
    split
    · next hm =>
      rw [wp_bind]
      refine tr_popP l2 l3 fun s5 m1 m2 => ?_
      exact simple_tr m2 (by simp [*]) hg (by simp [hst, inDoc]) rfl
        ⟨[], Or.inl rfl, hc3.struct (structural_of hm rfl)⟩ (x := e') (by simp) rfl rfl
    · split
      · exact node_push_tr l2 hc3 (by simp [*]) hg hi rfl rfl
      · next hm =>
        exact fetchSequenceEnd_tr l2 hc3 (by simp [*]) hg hi l3 (by simpa using hm)
  · next hm =>
    exact fetchSequenceEnd_tr g2 hc (by simp [*]) hg hi g3 (by simpa using hm)

theorem flowSequenceEntryMappingKey_tr (hf : First s) {ss : List State}
    (hst : s.parser.state = ⟨.FlowSequenceMappingKey, ss⟩) :
    wp True (flowSequenceEntryMappingKey drive) s (OkEv drive s.tokens) := by
  have hg := hf.good
  have hi : inDoc s.parser.state.top = true := by rw [hst]; rfl
  unfold flowSequenceEntryMappingKey
  rw [wp_bind]
  refine tr_peek (Pops.nil _) fun e s2 g1 g2 g3 _ => ?_
  split
  · exact node_push_tr g2 carry_nil (by simp [*]) hg hi rfl rfl
  · exact simple_tr g2 (by simp [*]) hg (by simp [hst, inDoc]) rfl (explains_empty carry_nil)
        (x := e) (by simp [g3]) rfl rfl

theorem flowSequenceEntryMappingValue_tr (hf : First s) {ss : List State}
    (hst : s.parser.state = ⟨.FlowSequenceMappingValue, ss⟩) :
    wp True (flowSequenceEntryMappingValue drive) s (OkEv drive s.tokens) := by
  have hg := hf.good
  have hi : inDoc s.parser.state.top = true := by rw [hst]; rfl
  unfold flowSequenceEntryMappingValue flowPairHasValue
  rw [wp_bind]
  refine tr_peek (Pops.nil _) fun e s2 g1 g2 g3 _ => ?_
  rw [wp_bind]
  split
  · next hm =>
    have hc' := carry_nil.struct (structural_of hm rfl)
    rw [wp_bind]
    refine tr_popP g2 g3 fun s3 k1 k2 => ?_
    rw [wp_bind]
    refine tr_peek k2 fun e' s4 l1 l2 l3 _ => ?_
    rw [wp_pure]
    split
    · exact node_push_tr l2 hc' (by simp [*]) hg hi rfl rfl
    · exact simple_tr l2 (by simp [*]) hg (by simp [hst, inDoc]) rfl (explains_empty hc')
        (x := e) (by simp) rfl rfl
  · rw [wp_pure]
    exact simple_tr g2 (by simp [*]) hg (by simp [hst, inDoc]) rfl (explains_empty carry_nil)
        (x := e) (by simp [g3]) rfl rfl

theorem flowSequenceEntryMappingEnd_tr (hf : First s) {ss : List State}
    (hst : s.parser.state = ⟨.FlowSequenceMappingEnd, ss⟩) :
    wp True (flowSequenceEntryMappingEnd drive) s (OkEv drive s.tokens) := by
  have hg := hf.good
  unfold flowSequenceEntryMappingEnd
  rw [wp_bind]
  refine tr_peek (Pops.nil _) fun e s2 g1 g2 g3 _ => ?_
  exact simple_tr g2 (by simp [*]) hg (by simp [hst, inDoc]) rfl carry_nil
        (x := e) (by simp [g3]) rfl rfl

theorem flowMappingKey_tr (hf : First s) {b : Bool} {ss : List State}
    (hst : s.parser.state = ⟨.FlowMappingKey b, ss⟩) :
    wp True (flowMappingKey drive b) s (OkEv drive s.tokens) := by
  have hg := hf.good
  have hi : inDoc s.parser.state.top = true := by rw [hst]; rfl
  unfold flowMappingKey
  rw [wp_bind]
  refine wp_mono (popFirst_tr (m := .FlowMappingStart) hf (by rw [hst]; rintro rfl; rfl)
    fun e h => structural_of h rfl) ?_
  rintro _ s1 ⟨h1, acc, h2, hc⟩
  rw [wp_bind]
  refine tr_peek h2 fun e s2 g1 g2 g3 _ => ?_
  split
  · rw [wp_bind]
    refine wp_mono (popFlowEntry_tr g2 hc g3) ?_
    rintro _ s3 ⟨k1, acc3, k2, hc3⟩
    rw [wp_bind]
    refine tr_peek k2 fun e' s4 l1 l2 l3 _ => ?_
    split
    · next hm =>
      have hc' := hc3.struct (structural_of hm rfl)
      rw [wp_bind]
      refine tr_popP l2 l3 fun s5 m1 m2 => ?_
      rw [wp_bind]
      refine tr_peek m2 fun e'' s6 n1 n2 n3 _ => ?_
      split
      · exact node_push_tr n2 hc' (by simp [*]) hg hi rfl rfl
      · exact simple_tr n2 (by simp [*]) hg (by simp [hst, inDoc]) rfl (explains_empty hc')
          (x := e'') (by simp [n3]) rfl rfl
    · split
      · exact node_push_tr l2 hc3 (by simp [*]) hg hi rfl rfl
      · next hm =>
        exact fetchMappingEnd_tr l2 hc3 (by simp [*]) hg hi l3 (by simpa using hm)
  · next hm =>
    exact fetchMappingEnd_tr g2 hc (by simp [*]) hg hi g3 (by simpa using hm)

theorem flowMappingValue_tr (hf : First s) {b : Bool} {ss : List State}
    (hst : s.parser.state = ⟨.FlowMappingValue b, ss⟩) :
    wp True (flowMappingValue drive b) s (OkEv drive s.tokens) := by
  have hg := hf.good
  have hi : inDoc s.parser.state.top = true := by rw [hst]; rfl
  unfold flowMappingValue
  rw [wp_bind]
  refine tr_peek (Pops.nil _) fun e s2 g1 g2 g3 _ => ?_
  split
  · exact simple_tr g2 (by simp [*]) hg (by simp [hst, inDoc]) rfl (explains_empty carry_nil)
        (x := e) (by simp [g3]) rfl rfl
  · split
    · next hm =>
      have hc' := carry_nil.struct (structural_of hm rfl)
      rw [wp_bind]
      refine tr_popP g2 g3 fun s3 k1 k2 => ?_
      rw [wp_bind]
      refine tr_peek k2 fun e' s4 l1 l2 l3 _ => ?_
      split
      · exact node_push_tr l2 hc' (by simp [*]) hg hi rfl rfl
      · exact simple_tr l2 (by simp [*]) hg (by simp [hst, inDoc]) rfl (explains_empty hc')
          (x := e') (by simp [l3]) rfl rfl
    · exact simple_tr g2 (by simp [*]) hg (by simp [hst, inDoc]) rfl (explains_empty carry_nil)
        (x := e) (by simp [g3]) rfl rfl

end Parser

end Yary
