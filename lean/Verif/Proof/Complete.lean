import Verif.Proof.Directives
import Verif.Spec.Translate

/-! Running the parser on a token stream of the language. -/

namespace Yary

open Spec PM

variable {σ : Type} {drive : Drive σ}

/-- Where the parser is and which tokens come next. -/
structure At (drive : Drive σ) (s : PS σ) (m : StateMachine) (d : Directives)
    (l : List TokenEntry) : Prop where
  parser : s.parser = { state := m, directives := d, done := false }
  ahead : Ahead drive s.tokens l

/-- Consecutive events. -/
def Reach (drive : Drive σ) (s : PS σ) (vs : List EventData) (s' : PS σ) : Prop :=
  ∃ es, Yields drive s es s' ∧ es.map Event.data = vs

theorem Spec.Yields.append {s s' s'' : PS σ} {es es' : List Event} (h : Yields drive s es s')
    (h' : Yields drive s' es' s'') : Yields drive s (es ++ es') s'' := by
  induction h with
  | nil => exact h'
  | cons f h t ih => exact .cons f h (ih h')

theorem Reach.nil (s : PS σ) : Reach drive s [] s := ⟨[], .nil _, rfl⟩

theorem Reach.trans {s s' s'' : PS σ} {u v : List EventData} (h : Reach drive s u s')
    (h' : Reach drive s' v s'') : Reach drive s (u ++ v) s'' := by
  obtain ⟨es, h1, rfl⟩ := h
  obtain ⟨es', h2, rfl⟩ := h'
  exact ⟨es ++ es', h1.append h2, by simp⟩

namespace Parser

theorem Reach.step {s s' : PS σ} {e : Event} {fuel : Nat} (hd : s.parser.done = false)
    (h : stateTransition drive (fuel + 1) s = (.ok (some e), s')) :
    Reach drive s [e.data] s' := by
  refine ⟨[e], .cons (fuel + 1) ?_ (.nil _), rfl⟩
  simp [nextEvent, nextEventLoop, bind, SO.bind, SO.get, hd, h, pure, SO.pure]

theorem Reach.skip {s s1 s' : PS σ} {e : Event} {fuel : Nat} (hd : s.parser.done = false)
    (h1 : stateTransition drive (fuel + 2) s = (.ok none, s1)) (hd1 : s1.parser.done = false)
    (h : stateTransition drive (fuel + 2) s1 = (.ok (some e), s')) :
    Reach drive s [e.data] s' := by
  refine ⟨[e], .cons (fuel + 2) ?_ (.nil _), rfl⟩
  simp [nextEvent, nextEventLoop, bind, SO.bind, SO.get, hd, h, h1, hd1, pure, SO.pure]

variable {s : PS σ} {m : StateMachine} {d : Directives} {t : TokenEntry} {l : List TokenEntry}

theorem at_peek (h : At drive s m d (t :: l)) :
    ∃ s', PM.peek drive s = (.ok t, s') ∧ At drive s' m d (t :: l) := by
  obtain ⟨q, h1, -, h3, -⟩ := peek_ahead h.ahead
  exact ⟨_, h1, h.parser, h3⟩

theorem at_peekMaybe (h : At drive s m d (t :: l)) :
    ∃ s', PM.peekMaybe drive s = (.ok (some t), s') ∧ At drive s' m d (t :: l) := by
  obtain ⟨q, h1, h2⟩ := id h.ahead
  refine ⟨{ s with tokens := q }, ?_, h.parser, (h.ahead.of_peeked h1).2.1⟩
  simp [PM.peekMaybe, PM.onTokens, h1]

theorem pop_of_peek {p q : PeekReader σ} (h : p.peek drive = (.ok (some t), q)) :
    p.pop drive = (.ok (some t), { q with peeked := none }) := by
  unfold PeekReader.peek at h
  cases hp : p.peeked with
  | some e0 =>
    rw [hp] at h
    simp only [Prod.mk.injEq, Out.ok.injEq, Option.some.injEq] at h
    obtain ⟨rfl, rfl⟩ := h
    simp [PeekReader.pop, hp]
  | none =>
    rw [hp] at h
    simp only [PeekReader.pop, hp]
    simp only at h
    split at h
    · next hx =>
      rw [if_pos hx]
      cases hn : p.takeNext drive with
      | mk o p1 =>
        rw [hn] at h
        cases o <;> simp_all
        exact h.2 ▸ h.1
    · simp at h

theorem at_pop (h : At drive s m d (t :: l)) :
    ∃ s', PM.pop drive s = (.ok t, s') ∧ At drive s' m d l := by
  obtain ⟨q, h1, h2⟩ := h.ahead
  refine ⟨{ s with tokens := { q with peeked := none } }, ?_, h.parser, h2⟩
  simp [PM.pop, PM.onTokens, bind, SO.bind, pop_of_peek h1, pure, SO.pure]

theorem at_setTop (st : State) (h : At drive s m d l) :
    ∃ s', PM.setTop st s = (.ok (), s') ∧ At drive s' (m.setTop st) d l :=
  ⟨_, rfl, by simp [h.parser], h.ahead⟩

theorem at_pushState (st : State) (h : At drive s m d l) :
    ∃ s', PM.pushState st s = (.ok (), s') ∧ At drive s' (m.push st) d l :=
  ⟨_, rfl, by simp [h.parser], h.ahead⟩

theorem at_popState (h : At drive s m d l) :
    ∃ s', PM.popState s = (.ok (), s') ∧ At drive s' m.pop d l :=
  ⟨_, rfl, by simp [h.parser], h.ahead⟩

/-! ### Nodes -/

/-- Markers at which a node may start. -/
def startsNode : Marker → Bool
  | .Alias | .Anchor | .Tag | .Scalar | .BlockSequenceStart | .BlockMappingStart
  | .FlowSequenceStart | .FlowMappingStart => true
  | _ => false

/-- The tokens that follow a node. -/
def Follow (l : List TokenEntry) : Prop := ∃ t l', l = t :: l' ∧ startsNode t.marker = false

/-- What `node` does on the tokens `u` with events `v`. -/
def NodeRun (drive : Drive σ) (d : Directives) (block : Bool) (kind : NodeKind)
    (u : List MaybeToken) (v : List EventData) : Prop :=
  ∀ (s : PS σ) (top k : State) (K : List State) (l1 l2 : List TokenEntry),
    At drive s { top, stack := k :: K } d (l1 ++ l2) → l1.map TokenEntry.wrap = u → Follow l2 →
    ∃ e s1 vs s2, node drive block kind s = (.ok (some e), s1) ∧ v = e.data :: vs ∧
      Reach drive s1 vs s2 ∧ At drive s2 { top := k, stack := K } d l2

theorem marker_of_wrap {w : MaybeToken} (h : t.wrap = w) : t.marker = w.marker := by
  rw [TokenEntry.marker, h]

theorem get_isNone {tags : TagMap} {h : Str} (hd : ∃ p, (h, p) ∈ tags) :
    (tags.get h).isNone = false := by
  obtain ⟨p, hp⟩ := hd
  unfold TagMap.get
  rw [Option.isNone_map, Option.isNone_eq_false_iff, List.find?_isSome]
  exact ⟨(h, p), hp, by simp⟩

theorem validateTag_usable {tags : TagMap} {tag : Option (Str × Str)} (h : Usable tags tag) :
    validateTag tags tag true = .ok (scalarTag tag) ∧ validateTag tags tag false = .ok tag := by
  cases tag with
  | none => exact ⟨rfl, rfl⟩
  | some tg =>
    obtain ⟨hn, sf⟩ := tg
    have hg := get_isNone (h hn sf rfl)
    by_cases hb : hn = bytes! "!" ∧ sf = []
    · obtain ⟨rfl, rfl⟩ := hb
      simp [validateTag, scalarTag, hg]
    · have h1 : ¬ (some (hn, sf) = some (bytes! "!", [])) := by simpa using hb
      have h2 : (hn == bytes! "!" && sf.isEmpty) = false := by
        cases hx : (hn == bytes! "!" && sf.isEmpty)
        · rfl
        · simp at hx; exact absurd hx hb
      unfold validateTag scalarTag
      rw [if_neg h1]
      simp only [h2, hg]
      simp

theorem wrap_one {w : MaybeToken} (h : l.map TokenEntry.wrap = [w]) :
    ∃ x, l = [x] ∧ x.wrap = w := by
  match l with
  | [] => simp at h
  | [x] => exact ⟨x, rfl, by simpa using h⟩
  | x :: y :: l => simp at h

theorem wrap_two {w w' : MaybeToken} (h : l.map TokenEntry.wrap = [w, w']) :
    ∃ x y, l = [x, y] ∧ x.wrap = w ∧ y.wrap = w' := by
  match l with
  | [] => simp at h
  | [x] => simp at h
  | [x, y] => exact ⟨x, y, rfl, by simpa using h⟩
  | x :: y :: z :: l => simp at h

/-- Properties: what `nodeProperties` returns and where it leaves the stream. -/
theorem at_nodeProperties {ps : List MaybeToken} {anchor : Option Str} {tag : Option (Str × Str)}
    (hp : TProps ps anchor tag) {lp : List TokenEntry} (hw : lp.map TokenEntry.wrap = ps)
    (hn : t.marker ≠ .Anchor) (hn' : t.marker ≠ .Tag) (h : At drive s m d (lp ++ t :: l)) :
    ∃ x xs, lp ++ t :: l = x :: xs ∧ (ps ≠ [] → x.marker ≠ .Alias) ∧ (ps = [] → x = t) ∧
      ∀ start, ∃ start' s', nodeProperties drive x.marker start s = (.ok (start', anchor, tag), s') ∧
        At drive s' m d (t :: l) := by
  cases hp with
  | none =>
    rw [List.map_eq_nil_iff] at hw
    subst hw
    refine ⟨t, l, rfl, by simp, by simp, ?_⟩
    intro start
    refine ⟨start, s, ?_, h⟩
    generalize t.marker = mk at hn hn'
    cases mk <;> first | rfl | contradiction
  | anchor a =>
    obtain ⟨x, rfl, hx⟩ : ∃ x, lp = [x] ∧ x.wrap = .Token (.Anchor a) := by
      exact wrap_one hw
    have hm : x.marker = .Anchor := marker_of_wrap hx
    refine ⟨x, t :: l, rfl, by simp [hm], by simp, ?_⟩
    intro start
    obtain ⟨s1, h1, a1⟩ := at_peekMaybe (by simpa using h)
    obtain ⟨s2, h2, a2⟩ := at_pop a1
    obtain ⟨s3, h3, a3⟩ := at_peekMaybe a2
    exact ⟨_, s3, by
      simp [nodeProperties, hm, fetchAnchor, fetchTag, consumeAnchor, bind, SO.bind, h1, h2, h3, hx,
        hn', pure, SO.pure]; rfl, a3⟩
  | tag hd sf =>
    obtain ⟨x, rfl, hx⟩ : ∃ x, lp = [x] ∧ x.wrap = .Token (.Tag hd sf) := by
      exact wrap_one hw
    have hm : x.marker = .Tag := marker_of_wrap hx
    refine ⟨x, t :: l, rfl, by simp [hm], by simp, ?_⟩
    intro start
    obtain ⟨s1, h1, a1⟩ := at_peekMaybe (by simpa using h)
    obtain ⟨s2, h2, a2⟩ := at_pop a1
    obtain ⟨s3, h3, a3⟩ := at_peekMaybe a2
    exact ⟨_, s3, by
      simp [nodeProperties, hm, fetchAnchor, fetchTag, consumeTag, bind, SO.bind, h1, h2, h3, hx,
        hn, pure, SO.pure]; rfl, a3⟩
  | anchorTag a hd sf =>
    obtain ⟨x, y, rfl, hx, hy⟩ : ∃ x y, lp = [x, y] ∧ x.wrap = .Token (.Anchor a) ∧
        y.wrap = .Token (.Tag hd sf) := by
      exact wrap_two hw
    have hm : x.marker = .Anchor := marker_of_wrap hx
    have hm' : y.marker = .Tag := marker_of_wrap hy
    refine ⟨x, y :: t :: l, rfl, by simp [hm], by simp, ?_⟩
    intro start
    obtain ⟨s1, h1, a1⟩ := at_peekMaybe (by simpa using h)
    obtain ⟨s2, h2, a2⟩ := at_pop a1
    obtain ⟨s3, h3, a3⟩ := at_peekMaybe a2
    obtain ⟨s4, h4, a4⟩ := at_pop a3
    exact ⟨_, s4, by
      simp [nodeProperties, hm, hm', fetchAnchor, fetchTag, consumeAnchor, consumeTag, bind, SO.bind,
        h1, h2, h3, h4, hx, hy, pure, SO.pure]; rfl, a4⟩
  | tagAnchor a hd sf =>
    obtain ⟨x, y, rfl, hx, hy⟩ : ∃ x y, lp = [x, y] ∧ x.wrap = .Token (.Tag hd sf) ∧
        y.wrap = .Token (.Anchor a) := by
      exact wrap_two hw
    have hm : x.marker = .Tag := marker_of_wrap hx
    have hm' : y.marker = .Anchor := marker_of_wrap hy
    refine ⟨x, y :: t :: l, rfl, by simp [hm], by simp, ?_⟩
    intro start
    obtain ⟨s1, h1, a1⟩ := at_peekMaybe (by simpa using h)
    obtain ⟨s2, h2, a2⟩ := at_pop a1
    obtain ⟨s3, h3, a3⟩ := at_peekMaybe a2
    obtain ⟨s4, h4, a4⟩ := at_pop a3
    exact ⟨_, s4, by
      simp [nodeProperties, hm, hm', fetchAnchor, fetchTag, consumeAnchor, consumeTag, bind, SO.bind,
        h1, h2, h3, h4, hx, hy, pure, SO.pure]; rfl, a4⟩

/-- The common part of the node productions: properties, then content `t` that `nodeContent`
handles; `w` is the event data before the tag check and `w'` after it. -/
theorem node_of_content {ps : List MaybeToken} {anchor : Option Str} {tag : Option (Str × Str)}
    (hp : TProps ps anchor tag) {lp : List TokenEntry} (hw : lp.map TokenEntry.wrap = ps)
    (hn : t.marker ≠ .Anchor) (hn' : t.marker ≠ .Tag) (hn'' : ps = [] → t.marker ≠ .Alias)
    {block : Bool} {kind : NodeKind} {w w' : EventData} {m' : StateMachine} {l' : List TokenEntry}
    (hv : ∀ a b, validateEventTag d.tags { start := a, stop := b, data := w } =
      .ok { start := a, stop := b, data := w' })
    (hc : ∀ s start, At drive s m d (t :: l) → ∃ a b s',
      nodeContent drive block kind start anchor tag s =
        (.ok { start := a, stop := b, data := w }, s') ∧ At drive s' m' d l')
    (h : At drive s m d (lp ++ t :: l)) :
    ∃ e s', node drive block kind s = (.ok (some e), s') ∧ e.data = w' ∧ At drive s' m' d l' := by
  obtain ⟨x, xs, hx, g1, g2, -⟩ := at_nodeProperties hp hw hn hn' h
  have h' := h
  rw [hx] at h'
  obtain ⟨s1, h1, a1⟩ := at_peek h'
  rw [← hx] at a1
  obtain ⟨x', xs', hx', -, -, g3⟩ := at_nodeProperties hp hw hn hn' a1
  rw [hx] at hx'
  cases hx'
  obtain ⟨start', s2, h2, a2⟩ := g3 x.readAt
  obtain ⟨a, b, s3, h3, a3⟩ := hc s2 start' a2
  have hal : x.marker ≠ .Alias := by
    by_cases hps : ps = []
    · rw [g2 hps]; exact hn'' hps
    · exact g1 hps
  refine ⟨{ start := a, stop := b, data := w' }, s3, ?_, rfl, a3⟩
  have hd : s3.parser.directives.tags = d.tags := by rw [a3.parser]
  simp only [node, nodeEvent, bind, SO.bind, h1, hal, if_false, h2, h3, SO.get, SO.lift, hd, hv,
    pure, SO.pure]

/-- A scalar node. -/
theorem run_scalar {ps : List MaybeToken} {anchor : Option Str} {tag : Option (Str × Str)}
    {w : MaybeToken} {c : ScalarLike} (b : Bool) (kind : NodeKind) (hp : TProps ps anchor tag)
    (hu : Usable d.tags tag) (ht : TScalar w c) :
    NodeRun drive d b kind (ps ++ [w]) [.Scalar { anchor, tag := scalarTag tag, kind } c] := by
  intro s top k K l1 l2 a hl hf
  obtain ⟨lp, lt, rfl, hlp, hlt⟩ := List.map_eq_append_iff.mp hl
  obtain ⟨t, rfl, hw⟩ := wrap_one hlt
  have hm : t.marker = .Scalar := by
    rw [marker_of_wrap hw]
    cases ht <;> rfl
  obtain ⟨e, s', h1, h2, h3⟩ := node_of_content (drive := drive) (s := s) (d := d)
    (m := { top, stack := k :: K }) (t := t) (l := l2) (block := b) (kind := kind)
    (w := .Scalar { anchor, tag, kind } c)
    (w' := .Scalar { anchor, tag := scalarTag tag, kind } c) (m' := { top := k, stack := K })
    (l' := l2) hp hlp (by simp [hm]) (by simp [hm]) (by simp [hm])
    (by intro a b; simp [validateEventTag, (validateTag_usable hu).1])
    (by
      intro s start a
      obtain ⟨s1, h1, a1⟩ := at_peek a
      obtain ⟨s2, h2, a2⟩ := at_pop a1
      obtain ⟨s3, h3, a3⟩ := at_popState a2
      refine ⟨start, t.readAt, s3, ?_, a3⟩
      have hc : consumeScalar drive s1 = (.ok (t.readAt, c), s2) := by
        simp only [consumeScalar, bind, SO.bind, h2, hw]
        cases ht <;> rfl
      simp only [nodeContent, bind, SO.bind, h1, hm, hc, h3, pure, SO.pure])
    (by simpa using a)
  exact ⟨e, s', [], s', h1, by rw [h2], .nil _, h3⟩

/-- Properties without content. -/
theorem run_empty {ps : List MaybeToken} {anchor : Option Str} {tag : Option (Str × Str)}
    (b : Bool) (kind : NodeKind) (hp : TProps ps anchor tag) (hu : Usable d.tags tag)
    (hne : ps ≠ []) :
    NodeRun drive d b kind ps [.Scalar { anchor, tag := scalarTag tag, kind } .empty] := by
  intro s top k K lp l2 a hlp hf
  obtain ⟨t, l, rfl, hm⟩ := hf
  have hprop : (anchor.isSome || tag.isSome) = true := by
    cases hp <;> simp_all
  obtain ⟨e, s', h1, h2, h3⟩ := node_of_content (drive := drive) (s := s) (d := d)
    (m := { top, stack := k :: K }) (t := t) (l := l) (block := b) (kind := kind)
    (w := .Scalar { anchor, tag, kind } .empty)
    (w' := .Scalar { anchor, tag := scalarTag tag, kind } .empty) (m' := { top := k, stack := K })
    (l' := t :: l) hp hlp (by rintro h; simp [h, startsNode] at hm)
    (by rintro h; simp [h, startsNode] at hm) (fun h => absurd h hne)
    (by intro a b; simp [validateEventTag, (validateTag_usable hu).1])
    (by
      intro s start a
      obtain ⟨s1, h1, a1⟩ := at_peek a
      obtain ⟨s2, h2, a2⟩ := at_popState a1
      refine ⟨start, t.readAt, s2, ?_, a2⟩
      simp only [nodeContent, bind, SO.bind, h1]
      generalize t.marker = mk at hm
      cases mk <;> first
        | (simp only [hprop, if_true, h2, SO.bind, pure, SO.pure]; done)
        | simp [startsNode] at hm)
    a
  exact ⟨e, s', [], s', h1, by rw [h2], .nil _, h3⟩

theorem run_alias (b : Bool) (kind : NodeKind) (name : Str) :
    NodeRun drive d b kind [.Token (.Alias name)] [.Alias name] := by
  intro s top k K l1 l2 a hl hf
  obtain ⟨t, rfl, hw⟩ := wrap_one hl
  have hm : t.marker = .Alias := marker_of_wrap hw
  obtain ⟨s1, h1, a1⟩ := at_peek a
  obtain ⟨s2, h2, a2⟩ := at_popState a1
  obtain ⟨s3, h3, a3⟩ := at_pop a2
  refine ⟨{ start := t.readAt, stop := t.readAt, data := .Alias name }, s3, [], s3, ?_, rfl,
    .nil _, a3⟩
  simp only [node, nodeEvent, consumeAlias, bind, SO.bind, h1, hm, if_true, h2, h3, hw, SO.get,
    SO.lift, validateEventTag, pure, SO.pure]

/-- What the state `st` does on the tokens of a collection, up to and including its end. `pre` is
the start token, still there when `first`. -/
def CollRun (drive : Drive σ) (d : Directives) (st : Bool → State) (first : Bool)
    (ts : List MaybeToken) (es : List EventData) : Prop :=
  ∀ (s : PS σ) (k : State) (K : List State) (pre l1 l2 : List TokenEntry),
    At drive s { top := st first, stack := k :: K } d (pre ++ (l1 ++ l2)) →
    pre.length = first.toNat → l1.map TokenEntry.wrap = ts →
    ∃ s', Reach drive s es s' ∧ At drive s' { top := k, stack := K } d l2

/-- A collection node. -/
theorem run_coll {ps : List MaybeToken} {anchor : Option Str} {tag : Option (Str × Str)}
    {ts : List MaybeToken} {es : List EventData} {b : Bool} {kind : NodeKind} {w : MaybeToken}
    {st : Bool → State} {data : EventData} (hp : TProps ps anchor tag)
    (hw : w.marker ≠ .Anchor ∧ w.marker ≠ .Tag ∧ w.marker ≠ .Alias)
    (hv : ∀ a b, validateEventTag d.tags { start := a, stop := b, data } =
      .ok { start := a, stop := b, data })
    (hc : ∀ (s s' : PS σ) start t, t.marker = w.marker → PM.peek drive s = (.ok t, s') →
      nodeContent drive b kind start anchor tag s =
        (do setTop (st true); pure { start, stop := t.readAt, data } : PM σ Event) s')
    (he : CollRun drive d st true ts es) :
    NodeRun drive d b kind (ps ++ w :: ts) (data :: es) := by
  intro s top k K l1 l2 a hl hf
  obtain ⟨lp, lt, rfl, hlp, hlt⟩ := List.map_eq_append_iff.mp hl
  obtain ⟨t, lt, rfl, ht, hlt⟩ := List.map_eq_cons_iff.mp hlt
  have hm : t.marker = w.marker := marker_of_wrap ht
  obtain ⟨e, s', h1, h2, h3⟩ := node_of_content (drive := drive) (s := s) (d := d)
    (m := { top, stack := k :: K }) (t := t) (l := lt ++ l2) (block := b)
    (kind := kind) (w := data) (w' := data) (m' := { top := st true, stack := k :: K })
    (l' := t :: (lt ++ l2)) hp hlp (by simp [hm, hw]) (by simp [hm, hw]) (by simp [hm, hw]) hv
    (by
      intro s start a
      obtain ⟨s1, h1, a1⟩ := at_peek a
      obtain ⟨s2, h2, a2⟩ := at_setTop (st true) a1
      refine ⟨start, t.readAt, s2, ?_, a2⟩
      rw [hc s s1 start t hm h1]
      simp only [bind, SO.bind, h2, pure, SO.pure])
    (by simpa using a)
  obtain ⟨s2, h4, h5⟩ := he s' k K [t] lt l2 h3 rfl hlt
  exact ⟨e, s', es, s2, h1, by rw [h2], h4, h5⟩

/-! ### Parts -/

/-- The tokens start a node. -/
def Starts (u : List MaybeToken) : Prop := ∃ w ws, u = w :: ws ∧ startsNode w.marker = true

theorem TNode.starts {tags : List (Str × Str)} {b : Bool} {k : NodeKind} {u : List MaybeToken}
    {v : List EventData} (h : TNode tags b k u v) : Starts u := by
  have hps : ∀ {ps : List MaybeToken} {anchor : Option Str} {tag : Option (Str × Str)},
      TProps ps anchor tag → ps = [] ∨ Starts ps := by
    intro ps anchor tag h
    cases h
    · exact .inl rfl
    all_goals exact .inr ⟨_, _, rfl, rfl⟩
  have happ : ∀ {ps : List MaybeToken} {anchor : Option Str} {tag : Option (Str × Str)}
      {w : MaybeToken} {ts : List MaybeToken}, TProps ps anchor tag → startsNode w.marker = true →
      Starts (ps ++ w :: ts) := by
    intro ps anchor tag w ts h hw
    rcases hps h with rfl | ⟨x, xs, rfl, hx⟩
    · exact ⟨w, ts, rfl, hw⟩
    · exact ⟨x, _, rfl, hx⟩
  cases h with
  | ref => exact ⟨_, _, rfl, rfl⟩
  | scalar b k hp hu ht =>
    refine happ hp ?_
    cases ht <;> rfl
  | empty b k hp hu hne => exact (hps hp).resolve_left hne
  | blockSeq k hp hu he => exact happ hp rfl
  | blockMap k hp hu he => exact happ hp rfl
  | flowSeq b k hp hu he => exact happ hp rfl
  | flowMap b k hp hu he => exact happ hp rfl

/-- A part: nothing, or a node. -/
def PartRun (drive : Drive σ) (d : Directives) (b : Bool) (kind : NodeKind) (u : List MaybeToken)
    (v : List EventData) : Prop :=
  u = [] ∧ v = [leftOut kind] ∨ Starts u ∧ NodeRun drive d b kind u v

/-- A value: nothing, or `:` and a part. -/
def ValueRun (drive : Drive σ) (d : Directives) (b : Bool) (u : List MaybeToken)
    (v : List EventData) : Prop :=
  u = [] ∧ v = [leftOut .Value] ∨
    ∃ u', u = .Token .Value :: u' ∧ PartRun drive d b .Value u' v

/-- The list starts with a token whose marker is among `ms`. -/
def Heads (l : List TokenEntry) (ms : List Marker) : Prop :=
  ∃ t l', l = t :: l' ∧ t.marker ∈ ms

theorem Heads.follow {ms : List Marker} (h : Heads l ms) (hm : ∀ m ∈ ms, startsNode m = false) :
    Follow l := by
  obtain ⟨t, l', rfl, h⟩ := h
  exact ⟨t, l', rfl, hm _ h⟩

theorem Heads.mono {ms ms' : List Marker} (h : Heads l ms) (hm : ∀ m ∈ ms, m ∈ ms') :
    Heads l ms' := by
  obtain ⟨t, l', rfl, h⟩ := h
  exact ⟨t, l', rfl, hm _ h⟩

theorem Heads.append {ms : List Marker} (h : Heads l ms) (r : List TokenEntry) :
    Heads (l ++ r) ms := by
  obtain ⟨t, l', rfl, h⟩ := h
  exact ⟨t, l' ++ r, rfl, h⟩

theorem heads_of_wrap {w : MaybeToken} {ws : List MaybeToken} {ms : List Marker}
    (h : l.map TokenEntry.wrap = w :: ws) (hm : w.marker ∈ ms) : Heads l ms := by
  obtain ⟨t, lt, rfl, ht, hlt⟩ := List.map_eq_cons_iff.mp h
  exact ⟨t, lt, rfl, by rw [marker_of_wrap ht]; exact hm⟩

/-- The common shape of the places where a node may be left out: after a look at the next token
the handler either continues with `st` and reports an empty scalar, or runs `node` with `st`
pushed. -/
theorem run_part {b : Bool} {kind : NodeKind} {u : List MaybeToken} {v : List EventData}
    (hp : PartRun drive d b kind u v) {l1 l2 : List TokenEntry} (hu : l1.map TokenEntry.wrap = u)
    {ms : List Marker} (hms : ∀ m ∈ ms, startsNode m = false) (hl2 : Heads l2 ms)
    {st top : State} {K : List State}
    (ha : At drive s { top, stack := K } d (l1 ++ l2)) :
    ∃ t l', l1 ++ l2 = t :: l' ∧
      ((t.marker ∈ ms ∧ ∃ s', setTop st s = (.ok (), s') ∧ v = [leftOut kind] ∧
          At drive s' { top := st, stack := K } d l2) ∨
        (startsNode t.marker = true ∧ ∃ s1 e s2 vs s', pushState st s = (.ok (), s1) ∧
          node drive b kind s1 = (.ok (some e), s2) ∧ v = e.data :: vs ∧
          Reach drive s2 vs s' ∧ At drive s' { top := st, stack := K } d l2)) := by
  rcases hp with ⟨rfl, rfl⟩ | ⟨⟨w, ws, rfl, hw⟩, hr⟩
  · rw [List.map_eq_nil_iff] at hu
    subst hu
    obtain ⟨t, l', rfl, ht⟩ := hl2
    obtain ⟨s', h1, a1⟩ := at_setTop st ha
    exact ⟨t, l', rfl, .inl ⟨ht, s', h1, rfl, a1⟩⟩
  · obtain ⟨t, lt, rfl, ht, hlt⟩ := List.map_eq_cons_iff.mp hu
    obtain ⟨s1, h1, a1⟩ := at_pushState st ha
    obtain ⟨e, s2, vs, s3, h2, h3, h4, h5⟩ := hr s1 top st K (t :: lt) l2 a1 (by simp [ht, hlt])
      (hl2.follow hms)
    exact ⟨t, lt ++ l2, rfl, .inr ⟨by rw [marker_of_wrap ht]; exact hw, s1, e, s2, vs, s3, h1, h2,
      h3, h4, h5⟩⟩

theorem at_popFirst {pre : List TokenEntry} {first : Bool} (hpre : pre.length = first.toNat)
    (h : At drive s m d (pre ++ l)) :
    ∃ s', popFirst drive first s = (.ok (), s') ∧ At drive s' m d l := by
  cases first with
  | false =>
    have : pre = [] := List.eq_nil_of_length_eq_zero hpre
    subst this
    exact ⟨s, rfl, h⟩
  | true =>
    match pre, hpre with
    | [x], _ =>
      obtain ⟨s1, h1, a1⟩ := at_pop h
      exact ⟨s1, by simp [popFirst, bind, SO.bind, h1, pure, SO.pure], a1⟩

theorem at_peekPopFirst {pre : List TokenEntry} {first : Bool} (hpre : pre.length = first.toNat)
    (h : At drive s m d (pre ++ l)) :
    ∃ s', peekPopFirst drive first s = (.ok (), s') ∧ At drive s' m d l := by
  cases first with
  | false =>
    have : pre = [] := List.eq_nil_of_length_eq_zero hpre
    subst this
    exact ⟨s, rfl, h⟩
  | true =>
    match pre, hpre with
    | [x], _ =>
      obtain ⟨s0, h0, a0⟩ := at_peek h
      obtain ⟨s1, h1, a1⟩ := at_pop a0
      exact ⟨s1, by simp [peekPopFirst, bind, SO.bind, h0, h1, pure, SO.pure], a1⟩

theorem Reach.of_handler {top : State} {K : List State} {e : Event} {s' : PS σ}
    (h : At drive s { top, stack := K } d l) {f : PM σ (Option Event)}
    (hf : ∀ s : PS σ, s.parser.state.top = top → stateTransition drive 1 s = f s)
    (he : f s = (.ok (some e), s')) : Reach drive s [e.data] s' := by
  refine Reach.step (fuel := 0) (by rw [h.parser]) ?_
  rw [hf s (by rw [h.parser]), he]

/-! ### Block collections -/

theorem run_blockSeq_close {first : Bool} :
    CollRun drive d .BlockSequenceEntry first [.Token .BlockEnd] [.SequenceEnd] := by
  intro s k K pre l1 l2 a hpre hl
  obtain ⟨t, rfl, hw⟩ := wrap_one hl
  have hm : t.marker = .BlockEnd := marker_of_wrap hw
  obtain ⟨s1, h1, a1⟩ := at_popFirst hpre a
  obtain ⟨s2, h2, a2⟩ := at_peek a1
  obtain ⟨s3, h3, a3⟩ := at_pop a2
  obtain ⟨s4, h4, a4⟩ := at_popState a3
  refine ⟨s4, Reach.of_handler (e := ⟨t.readAt, t.readAt, .SequenceEnd⟩) a
    (f := blockSequenceEntry drive first) ?_ ?_, a4⟩
  · intro s hs; simp [stateTransition, bind, SO.bind, SO.get, hs]
  · simp [blockSequenceEntry, bind, SO.bind, h1, h2, hm, h3, h4, pure, SO.pure]

theorem run_blockSeq_entry {first : Bool} {u ts : List MaybeToken} {v es : List EventData}
    (hp : PartRun drive d true .Entry u v)
    (ht : ∀ l, l.map TokenEntry.wrap = ts → Heads l [.BlockEntry, .BlockEnd])
    (ih : CollRun drive d .BlockSequenceEntry false ts es) :
    CollRun drive d .BlockSequenceEntry first (.Token .BlockEntry :: (u ++ ts)) (v ++ es) := by
  intro s k K pre l1 l2 a hpre hl
  obtain ⟨t, lt, rfl, hw, hlt⟩ := List.map_eq_cons_iff.mp hl
  obtain ⟨lu, ls, rfl, hlu, hls⟩ := List.map_eq_append_iff.mp hlt
  have hm : t.marker = .BlockEntry := marker_of_wrap hw
  simp only [List.append_assoc, List.cons_append] at a
  obtain ⟨s1, h1, a1⟩ := at_popFirst hpre a
  obtain ⟨s2, h2, a2⟩ := at_peek a1
  obtain ⟨s3, h3, a3⟩ := at_pop a2
  obtain ⟨t', l', hl', -⟩ := run_part hp hlu (by decide) ((ht ls hls).append l2) a3
    (st := .BlockSequenceEntry false)
  rw [hl'] at a3
  obtain ⟨s4, h4, a4⟩ := at_peek a3
  rw [← hl'] at a4
  obtain ⟨t'', l'', hl'', hcase⟩ := run_part hp hlu (by decide) ((ht ls hls).append l2) a4
    (st := .BlockSequenceEntry false)
  rw [hl'] at hl''
  cases hl''
  rcases hcase with ⟨hmem, s5, h5, rfl, a5⟩ | ⟨hst, s5, e, s6, vs, s7, h5, h6, rfl, h7, a7⟩
  · obtain ⟨s', h8, a8⟩ := ih s5 k K [] ls l2 a5 rfl hls
    refine ⟨s', Reach.trans ?_ h8, a8⟩
    refine Reach.of_handler (e := emptyScalar t.readAt .Entry) a
      (f := blockSequenceEntry drive first) ?_ ?_
    · intro s hs; simp [stateTransition, bind, SO.bind, SO.get, hs]
    · simp only [List.mem_cons, List.not_mem_nil, or_false] at hmem
      rcases hmem with hx | hx <;>
        simp [blockSequenceEntry, bind, SO.bind, h1, h2, hm, h3, h4, hx, h5, pure, SO.pure]
  · obtain ⟨s', h8, a8⟩ := ih s7 k K [] ls l2 a7 rfl hls
    refine ⟨s', ?_, a8⟩
    rw [show e.data :: vs ++ es = [e.data] ++ (vs ++ es) by simp]
    refine Reach.trans ?_ (h7.trans h8)
    refine Reach.of_handler a (f := blockSequenceEntry drive first) ?_ ?_
    · intro s hs; simp [stateTransition, bind, SO.bind, SO.get, hs]
    · have : ¬ (t'.marker = .BlockEntry ∨ t'.marker = .BlockEnd) := by
        rintro (h | h) <;> simp [h, startsNode] at hst
      simp [blockSequenceEntry, bind, SO.bind, h1, h2, hm, h3, h4, this, h5, h6]

/-- `run_part` after the look at the next token. -/
theorem peek_part {b : Bool} {kind : NodeKind} {u : List MaybeToken} {v : List EventData}
    (hp : PartRun drive d b kind u v) {l1 l2 : List TokenEntry} (hu : l1.map TokenEntry.wrap = u)
    {ms : List Marker} (hms : ∀ m ∈ ms, startsNode m = false) (hl2 : Heads l2 ms)
    (st : State) {top : State} {K : List State}
    (ha : At drive s { top, stack := K } d (l1 ++ l2)) :
    ∃ t s0, PM.peek drive s = (.ok t, s0) ∧ At drive s0 { top, stack := K } d (l1 ++ l2) ∧
      ((t.marker ∈ ms ∧ ∃ s', setTop st s0 = (.ok (), s') ∧ v = [leftOut kind] ∧
          At drive s' { top := st, stack := K } d l2) ∨
        (startsNode t.marker = true ∧ ∃ s1 e s2 vs s', pushState st s0 = (.ok (), s1) ∧
          node drive b kind s1 = (.ok (some e), s2) ∧ v = e.data :: vs ∧
          Reach drive s2 vs s' ∧ At drive s' { top := st, stack := K } d l2)) := by
  obtain ⟨t, l', hl, -⟩ := run_part hp hu hms hl2 ha (st := st)
  have ha' := ha
  rw [hl] at ha'
  obtain ⟨s0, h0, a0⟩ := at_peek ha'
  rw [← hl] at a0
  obtain ⟨t2, l2', hl', hc⟩ := run_part hp hu hms hl2 a0 (st := st)
  rw [hl] at hl'
  cases hl'
  exact ⟨t, s0, h0, a0, hc⟩

theorem not_mem_of_starts {ms : List Marker} (hms : ∀ m ∈ ms, startsNode m = false)
    (h : startsNode t.marker = true) : t.marker ∉ ms := by
  intro hm
  rw [hms _ hm] at h
  cases h

theorem run_blockMap_close {first : Bool} :
    CollRun drive d .BlockMappingKey first [.Token .BlockEnd] [.MappingEnd] := by
  intro s k K pre l1 l2 a hpre hl
  obtain ⟨t, rfl, hw⟩ := wrap_one hl
  have hm : t.marker = .BlockEnd := marker_of_wrap hw
  obtain ⟨s1, h1, a1⟩ := at_peekPopFirst hpre a
  obtain ⟨s2, h2, a2⟩ := at_peek a1
  obtain ⟨s3, h3, a3⟩ := at_pop a2
  obtain ⟨s4, h4, a4⟩ := at_popState a3
  refine ⟨s4, Reach.of_handler (e := ⟨t.readAt, t.readAt, .MappingEnd⟩) a
    (f := blockMappingKey drive first) ?_ ?_, a4⟩
  · intro s hs; simp [stateTransition, bind, SO.bind, SO.get, hs]
  · simp [blockMappingKey, bind, SO.bind, h1, h2, hm, h3, h4, pure, SO.pure]

/-- The value of a pair of a block mapping. -/
theorem run_blockValue {u : List MaybeToken} {v : List EventData}
    (hv : ValueRun drive d true u v) {k : State} {K : List State} {l1 l2 : List TokenEntry}
    (a : At drive s { top := .BlockMappingValue, stack := k :: K } d (l1 ++ l2))
    (hl : l1.map TokenEntry.wrap = u) (h2 : Heads l2 [.Key, .BlockEnd]) :
    ∃ s', Reach drive s v s' ∧
      At drive s' { top := .BlockMappingKey false, stack := k :: K } d l2 := by
  have hst : ∀ s : PS σ, s.parser.state.top = .BlockMappingValue →
      stateTransition drive 1 s = blockMappingValue drive s := by
    intro s hs; simp [stateTransition, bind, SO.bind, SO.get, hs]
  rcases hv with ⟨rfl, rfl⟩ | ⟨u', rfl, hp⟩
  · rw [List.map_eq_nil_iff] at hl
    subst hl
    obtain ⟨t, l', rfl, ht⟩ := h2
    obtain ⟨s1, h1, a1⟩ := at_peek a
    obtain ⟨s2, h2, a2⟩ := at_setTop (.BlockMappingKey false) a1
    refine ⟨s2, Reach.of_handler (e := emptyScalar t.readAt .Value) a hst ?_, a2⟩
    simp only [List.mem_cons, List.not_mem_nil, or_false] at ht
    rcases ht with hx | hx <;>
      simp [blockMappingValue, bind, SO.bind, h1, hx, h2, pure, SO.pure]
  · obtain ⟨t, lt, rfl, hw, hlt⟩ := List.map_eq_cons_iff.mp hl
    have hm : t.marker = .Value := marker_of_wrap hw
    obtain ⟨s1, h1, a1⟩ := at_peek a
    obtain ⟨s2, h2', a2⟩ := at_pop a1
    obtain ⟨t', s3, h3, a3, hcase⟩ := peek_part hp hlt
      (ms := [.Key, .Value, .BlockEnd]) (by decide) (h2.mono (by decide)) (.BlockMappingKey false) a2
    rcases hcase with ⟨hmem, s5, h5, rfl, a5⟩ | ⟨hst', s5, e, s6, vs, s7, h5, h6, rfl, h7, a7⟩
    · refine ⟨s5, Reach.of_handler (e := emptyScalar t'.readAt .Value) a hst ?_, a5⟩
      simp only [List.mem_cons, List.not_mem_nil, or_false] at hmem
      rcases hmem with hx | hx | hx <;>
        simp [blockMappingValue, bind, SO.bind, h1, hm, h2', h3, hx, h5, pure, SO.pure]
    · refine ⟨s7, ?_, a7⟩
      rw [show e.data :: vs = [e.data] ++ vs by simp]
      refine Reach.trans (Reach.of_handler a hst ?_) h7
      have := not_mem_of_starts (ms := [.Key, .Value, .BlockEnd]) (by decide) hst'
      simp only [List.mem_cons, List.not_mem_nil, or_false, not_or] at this
      simp [blockMappingValue, bind, SO.bind, h1, hm, h2', h3, this, h5, h6]

theorem run_blockMap_pair {first : Bool} {u u' ts : List MaybeToken} {v v' es : List EventData}
    (hp : PartRun drive d true .Key u v) (hv : ValueRun drive d true u' v')
    (ht : ∀ l, l.map TokenEntry.wrap = ts → Heads l [.Key, .BlockEnd])
    (ih : CollRun drive d .BlockMappingKey false ts es) :
    CollRun drive d .BlockMappingKey first (.Token .Key :: (u ++ (u' ++ ts)))
      (v ++ (v' ++ es)) := by
  intro s k K pre l1 l2 a hpre hl
  obtain ⟨t, lt, rfl, hw, hlt⟩ := List.map_eq_cons_iff.mp hl
  obtain ⟨lu, lr, rfl, hlu, hlr⟩ := List.map_eq_append_iff.mp hlt
  obtain ⟨lv, ls, rfl, hlv, hls⟩ := List.map_eq_append_iff.mp hlr
  have hm : t.marker = .Key := marker_of_wrap hw
  have hst : ∀ s : PS σ, s.parser.state.top = .BlockMappingKey first →
      stateTransition drive 1 s = blockMappingKey drive first s := by
    intro s hs; simp [stateTransition, bind, SO.bind, SO.get, hs]
  simp only [List.append_assoc, List.cons_append] at a
  obtain ⟨s1, h1, a1⟩ := at_peekPopFirst hpre a
  obtain ⟨s2, h2, a2⟩ := at_peek a1
  obtain ⟨s3, h3, a3⟩ := at_pop a2
  have hhead : Heads (lv ++ (ls ++ l2)) [.Key, .Value, .BlockEnd] := by
    rcases hv with ⟨rfl, -⟩ | ⟨u'', rfl, -⟩
    · rw [List.map_eq_nil_iff] at hlv
      subst hlv
      exact ((ht ls hls).append l2).mono (by decide)
    · exact (heads_of_wrap hlv (by decide)).append _
  obtain ⟨t', s4, h4, a4, hcase⟩ := peek_part hp hlu (by decide) hhead .BlockMappingValue a3
  rcases hcase with ⟨hmem, s5, h5, rfl, a5⟩ | ⟨hst', s5, e, s6, vs, s7, h5, h6, rfl, h7, a7⟩
  · obtain ⟨s8, h8, a8⟩ := run_blockValue hv a5 hlv ((ht ls hls).append l2)
    obtain ⟨s', h9, a9⟩ := ih s8 k K [] ls l2 a8 rfl hls
    refine ⟨s', Reach.trans ?_ (h8.trans h9), a9⟩
    refine Reach.of_handler (e := emptyScalar t'.readAt .Key) a hst ?_
    simp only [List.mem_cons, List.not_mem_nil, or_false] at hmem
    rcases hmem with hx | hx | hx <;>
      simp [blockMappingKey, bind, SO.bind, h1, h2, hm, h3, h4, hx, h5, pure, SO.pure]
  · obtain ⟨s8, h8, a8⟩ := run_blockValue hv a7 hlv ((ht ls hls).append l2)
    obtain ⟨s', h9, a9⟩ := ih s8 k K [] ls l2 a8 rfl hls
    refine ⟨s', ?_, a9⟩
    rw [show e.data :: vs ++ (v' ++ es) = [e.data] ++ (vs ++ (v' ++ es)) by simp]
    refine Reach.trans (Reach.of_handler a hst ?_) (h7.trans (h8.trans h9))
    have := not_mem_of_starts (ms := [.Key, .Value, .BlockEnd]) (by decide) hst'
    simp only [List.mem_cons, List.not_mem_nil, or_false, not_or] at this
    simp [blockMappingKey, bind, SO.bind, h1, h2, hm, h3, h4, this, h5, h6]

/-! ### Flow sequences -/

theorem at_fetchSequenceEnd {k : State} {K : List State} {top : State} {a b : Nat}
    (h : At drive s { top, stack := k :: K } d (t :: l)) :
    ∃ s', fetchSequenceEnd drive a b s = (.ok ⟨a, b, .SequenceEnd⟩, s') ∧
      At drive s' { top := k, stack := K } d l := by
  obtain ⟨s1, h1, a1⟩ := at_popState h
  obtain ⟨s2, h2, a2⟩ := at_pop a1
  exact ⟨s2, by simp [fetchSequenceEnd, bind, SO.bind, h1, h2, pure, SO.pure], a2⟩

theorem at_fetchMappingEnd {k : State} {K : List State} {top : State} {a b : Nat}
    (h : At drive s { top, stack := k :: K } d (t :: l)) :
    ∃ s', fetchMappingEnd drive a b s = (.ok ⟨a, b, .MappingEnd⟩, s') ∧
      At drive s' { top := k, stack := K } d l := by
  obtain ⟨s1, h1, a1⟩ := at_popState h
  obtain ⟨s2, h2, a2⟩ := at_pop a1
  exact ⟨s2, by simp [fetchMappingEnd, bind, SO.bind, h1, h2, pure, SO.pure], a2⟩

theorem run_flowSeq_close {first : Bool} :
    CollRun drive d .FlowSequenceEntry first [.Token .FlowSequenceEnd] [.SequenceEnd] := by
  intro s k K pre l1 l2 a hpre hl
  obtain ⟨t, rfl, hw⟩ := wrap_one hl
  have hm : t.marker = .FlowSequenceEnd := marker_of_wrap hw
  obtain ⟨s1, h1, a1⟩ := at_popFirst hpre a
  obtain ⟨s2, h2, a2⟩ := at_peek a1
  obtain ⟨s3, h3, a3⟩ := at_fetchSequenceEnd (a := t.readAt) (b := t.readAt) a2
  refine ⟨s3, Reach.of_handler (e := ⟨t.readAt, t.readAt, .SequenceEnd⟩) a
    (f := flowSequenceEntry drive first) ?_ ?_, a3⟩
  · intro s hs; simp [stateTransition, bind, SO.bind, SO.get, hs]
  · simp [flowSequenceEntry, bind, SO.bind, h1, h2, hm, h3, pure, SO.pure]

theorem run_flowSeq_trailing :
    CollRun drive d .FlowSequenceEntry false [.Token .FlowEntry, .Token .FlowSequenceEnd]
      [.SequenceEnd] := by
  intro s k K pre l1 l2 a hpre hl
  obtain ⟨t, t', rfl, hw, hw'⟩ := wrap_two hl
  have hm : t.marker = .FlowEntry := marker_of_wrap hw
  have hm' : t'.marker = .FlowSequenceEnd := marker_of_wrap hw'
  obtain ⟨s1, h1, a1⟩ := at_popFirst hpre a
  obtain ⟨s2, h2, a2⟩ := at_peek a1
  obtain ⟨s3, h3, a3⟩ := at_pop a2
  obtain ⟨s4, h4, a4⟩ := at_peek a3
  obtain ⟨s5, h5, a5⟩ := at_fetchSequenceEnd (a := t'.readAt) (b := t'.readAt) a4
  refine ⟨s5, Reach.of_handler (e := ⟨t'.readAt, t'.readAt, .SequenceEnd⟩) a
    (f := flowSequenceEntry drive false) ?_ ?_, a5⟩
  · intro s hs; simp [stateTransition, bind, SO.bind, SO.get, hs]
  · simp [flowSequenceEntry, popFlowEntry, bind, SO.bind, h1, h2, hm, hm', h3, h4, h5, pure,
      SO.pure]

/-- The value of a pair in a flow sequence. -/
theorem run_pairValue {u : List MaybeToken} {v : List EventData}
    (hv : ValueRun drive d false u v) {k : State} {K : List State} {l1 l2 : List TokenEntry}
    (a : At drive s { top := .FlowSequenceMappingValue, stack := k :: K } d (l1 ++ l2))
    (hl : l1.map TokenEntry.wrap = u) (h2 : Heads l2 [.FlowEntry, .FlowSequenceEnd]) :
    ∃ s', Reach drive s v s' ∧
      At drive s' { top := .FlowSequenceMappingEnd, stack := k :: K } d l2 := by
  have hst : ∀ s : PS σ, s.parser.state.top = .FlowSequenceMappingValue →
      stateTransition drive 1 s = flowSequenceEntryMappingValue drive s := by
    intro s hs; simp [stateTransition, bind, SO.bind, SO.get, hs]
  rcases hv with ⟨rfl, rfl⟩ | ⟨u', rfl, hp⟩
  · rw [List.map_eq_nil_iff] at hl
    subst hl
    obtain ⟨t, l', rfl, ht⟩ := h2
    obtain ⟨s1, h1, a1⟩ := at_peek a
    obtain ⟨s2, h2, a2⟩ := at_setTop .FlowSequenceMappingEnd a1
    refine ⟨s2, Reach.of_handler (e := emptyScalar t.readAt .Value) a hst ?_, a2⟩
    simp only [List.mem_cons, List.not_mem_nil, or_false] at ht
    rcases ht with hx | hx <;>
      simp [flowSequenceEntryMappingValue, flowPairHasValue, bind, SO.bind, h1, hx, h2, pure,
        SO.pure]
  · obtain ⟨t, lt, rfl, hw, hlt⟩ := List.map_eq_cons_iff.mp hl
    have hm : t.marker = .Value := marker_of_wrap hw
    obtain ⟨s1, h1, a1⟩ := at_peek a
    obtain ⟨s2, h2', a2⟩ := at_pop a1
    obtain ⟨t', s3, h3, a3, hcase⟩ := peek_part hp hlt
      (ms := [.FlowEntry, .FlowSequenceEnd]) (by decide) h2 .FlowSequenceMappingEnd a2
    rcases hcase with ⟨hmem, s5, h5, rfl, a5⟩ | ⟨hst', s5, e, s6, vs, s7, h5, h6, rfl, h7, a7⟩
    · refine ⟨s5, Reach.of_handler (e := emptyScalar t.readAt .Value) a hst ?_, a5⟩
      simp only [List.mem_cons, List.not_mem_nil, or_false] at hmem
      rcases hmem with hx | hx <;>
        simp [flowSequenceEntryMappingValue, flowPairHasValue, bind, SO.bind, h1, hm, h2', h3, hx,
          h5, pure, SO.pure]
    · refine ⟨s7, ?_, a7⟩
      rw [show e.data :: vs = [e.data] ++ vs by simp]
      refine Reach.trans (Reach.of_handler a hst ?_) h7
      have := not_mem_of_starts (ms := [.FlowEntry, .FlowSequenceEnd]) (by decide) hst'
      simp only [List.mem_cons, List.not_mem_nil, or_false, not_or] at this
      simp [flowSequenceEntryMappingValue, flowPairHasValue, bind, SO.bind, h1, hm, h2', h3, this,
        h5, h6, pure, SO.pure]

/-- The rest of a pair in a flow sequence, after its `MappingStart`. -/
theorem run_pair {u u' : List MaybeToken} {v v' : List EventData}
    (hp : PartRun drive d false .Key u v) (hv : ValueRun drive d false u' v') {k : State}
    {K : List State} {lu lv l2 : List TokenEntry}
    (a : At drive s { top := .FlowSequenceMappingKey, stack := k :: K } d (lu ++ (lv ++ l2)))
    (hlu : lu.map TokenEntry.wrap = u) (hlv : lv.map TokenEntry.wrap = u')
    (h2 : Heads l2 [.FlowEntry, .FlowSequenceEnd]) :
    ∃ s', Reach drive s (v ++ v' ++ [.MappingEnd]) s' ∧
      At drive s' { top := .FlowSequenceEntry false, stack := k :: K } d l2 := by
  have hst : ∀ s : PS σ, s.parser.state.top = .FlowSequenceMappingKey →
      stateTransition drive 1 s = flowSequenceEntryMappingKey drive s := by
    intro s hs; simp [stateTransition, bind, SO.bind, SO.get, hs]
  have hst' : ∀ s : PS σ, s.parser.state.top = .FlowSequenceMappingEnd →
      stateTransition drive 1 s = flowSequenceEntryMappingEnd drive s := by
    intro s hs; simp [stateTransition, bind, SO.bind, SO.get, hs]
  have hhead : Heads (lv ++ l2) [.Value, .FlowEntry, .FlowSequenceEnd] := by
    rcases hv with ⟨rfl, -⟩ | ⟨u'', rfl, -⟩
    · rw [List.map_eq_nil_iff] at hlv
      subst hlv
      exact h2.mono (by decide)
    · exact (heads_of_wrap hlv (by decide)).append _
  have hfin : ∀ s : PS σ, At drive s { top := .FlowSequenceMappingEnd, stack := k :: K } d l2 →
      ∃ s', Reach drive s [.MappingEnd] s' ∧
        At drive s' { top := .FlowSequenceEntry false, stack := k :: K } d l2 := by
    intro s a
    obtain ⟨t, l', rfl, -⟩ := h2
    obtain ⟨s1, h1, a1⟩ := at_peek a
    obtain ⟨s2, h2, a2⟩ := at_setTop (.FlowSequenceEntry false) a1
    refine ⟨s2, Reach.of_handler (e := ⟨t.readAt, t.readAt, .MappingEnd⟩) a hst' ?_, a2⟩
    simp [flowSequenceEntryMappingEnd, bind, SO.bind, h1, h2, pure, SO.pure]
  obtain ⟨t', s4, h4, a4, hcase⟩ := peek_part hp hlu (by decide) hhead .FlowSequenceMappingValue a
  rcases hcase with ⟨hmem, s5, h5, rfl, a5⟩ | ⟨hsn, s5, e, s6, vs, s7, h5, h6, rfl, h7, a7⟩
  · obtain ⟨s8, h8, a8⟩ := run_pairValue hv a5 hlv h2
    obtain ⟨s', h9, a9⟩ := hfin s8 a8
    refine ⟨s', Reach.trans (Reach.trans ?_ h8) h9, a9⟩
    refine Reach.of_handler (e := emptyScalar t'.readAt .Key) a hst ?_
    simp only [List.mem_cons, List.not_mem_nil, or_false] at hmem
    rcases hmem with hx | hx | hx <;>
      simp [flowSequenceEntryMappingKey, bind, SO.bind, h4, hx, h5, pure, SO.pure]
  · obtain ⟨s8, h8, a8⟩ := run_pairValue hv a7 hlv h2
    obtain ⟨s', h9, a9⟩ := hfin s8 a8
    refine ⟨s', ?_, a9⟩
    rw [show e.data :: vs ++ v' ++ [.MappingEnd] = [e.data] ++ (vs ++ v' ++ [.MappingEnd]) by simp]
    refine Reach.trans (Reach.of_handler a hst ?_) ((h7.trans h8).trans h9)
    have := not_mem_of_starts (ms := [.Value, .FlowEntry, .FlowSequenceEnd]) (by decide) hsn
    simp only [List.mem_cons, List.not_mem_nil, or_false, not_or] at this
    simp [flowSequenceEntryMappingKey, bind, SO.bind, h4, this, h5, h6]

/-- An entry of a flow sequence. -/
def EntryRun (drive : Drive σ) (d : Directives) (u : List MaybeToken) (v : List EventData) : Prop :=
  Starts u ∧ NodeRun drive d false .Entry u v ∨
  ∃ a b x y, u = .Token .Key :: (a ++ b) ∧
    v = .MappingStart { anchor := none, tag := none, kind := .Entry } :: (x ++ y ++ [.MappingEnd]) ∧
    PartRun drive d false .Key a x ∧ ValueRun drive d false b y

theorem run_flowSeq_entry {first : Bool} {u ts : List MaybeToken} {v es : List EventData}
    (hp : EntryRun drive d u v)
    (ht : ∀ l, l.map TokenEntry.wrap = ts → Heads l [.FlowEntry, .FlowSequenceEnd])
    (ih : CollRun drive d .FlowSequenceEntry false ts es) :
    CollRun drive d .FlowSequenceEntry first
      ((if first then [] else [.Token .FlowEntry]) ++ (u ++ ts)) (v ++ es) := by
  intro s k K pre l1 l2 a hpre hl
  obtain ⟨lc, lr, rfl, hlc, hlr⟩ := List.map_eq_append_iff.mp hl
  obtain ⟨lu, ls, rfl, hlu, hls⟩ := List.map_eq_append_iff.mp hlr
  have hst : ∀ s : PS σ, s.parser.state.top = .FlowSequenceEntry first →
      stateTransition drive 1 s = flowSequenceEntry drive first s := by
    intro s hs; simp [stateTransition, bind, SO.bind, SO.get, hs]
  simp only [List.append_assoc] at a
  obtain ⟨s1, h1, a1⟩ := at_popFirst hpre a
  -- the first token of the entry
  obtain ⟨w, ws, hu⟩ : ∃ w ws, u = w :: ws := by
    rcases hp with ⟨⟨w, ws, rfl, -⟩, -⟩ | ⟨_, _, _, _, rfl, -⟩ <;> exact ⟨_, _, rfl⟩
  have hwm : startsNode w.marker = true ∨ w = .Token .Key := by
    rcases hp with ⟨⟨w', ws', rfl, h⟩, -⟩ | ⟨_, _, _, _, h, -⟩
    · cases hu; exact .inl h
    · rw [h] at hu; cases hu; exact .inr rfl
  have hwe : w.marker ≠ .FlowSequenceEnd := by
    rcases hwm with h | h
    · intro hx; simp [hx, startsNode] at h
    · rw [h]; decide
  obtain ⟨x, lx, rfl, hx, hlx⟩ := List.map_eq_cons_iff.mp (hlu.trans hu)
  have hxm : x.marker = w.marker := marker_of_wrap hx
  -- the comma
  obtain ⟨c, s2, s3, h2, h3, hc, a3⟩ : ∃ c s2 s3, PM.peek drive s1 = (.ok c, s2) ∧
      popFlowEntry drive first c .MissingFlowSequenceEntryOrEnd s2 = (.ok (), s3) ∧
      c.marker ≠ .FlowSequenceEnd ∧
      At drive s3 { top := .FlowSequenceEntry first, stack := k :: K } d
        (x :: lx ++ (ls ++ l2)) := by
    cases first with
    | true =>
      simp only [if_true, List.map_eq_nil_iff] at hlc
      subst hlc
      obtain ⟨s2, h2, a2⟩ := at_peek a1
      exact ⟨x, s2, s2, h2, rfl, by rw [hxm]; exact hwe, a2⟩
    | false =>
      obtain ⟨c, rfl, hcw⟩ := wrap_one hlc
      have hcm : c.marker = .FlowEntry := marker_of_wrap hcw
      obtain ⟨s2, h2, a2⟩ := at_peek a1
      obtain ⟨s3, h3, a3⟩ := at_pop a2
      exact ⟨c, s2, s3, h2, by simp [popFlowEntry, hcm, bind, SO.bind, h3, pure, SO.pure],
        by simp [hcm], a3⟩
  obtain ⟨s4, h4, a4⟩ := at_peek a3
  rcases hp with ⟨⟨w', ws', rfl, hs⟩, hr⟩ | ⟨a', b', x', y', rfl, rfl, hp1, hp2⟩
  · cases hu
    have hxk : x.marker ≠ .Key := by
      rw [hxm]; intro h; simp [h, startsNode] at hs
    obtain ⟨s5, h5, a5⟩ := at_pushState (.FlowSequenceEntry false) a4
    obtain ⟨e, s6, vs, s7, h6, rfl, h7, a7⟩ := hr s5 _ _ _ (x :: lx) (ls ++ l2) a5
      (by simp [hx, hlx]) (((ht ls hls).append l2).follow (by decide))
    obtain ⟨s', h8, a8⟩ := ih s7 k K [] ls l2 a7 rfl hls
    refine ⟨s', ?_, a8⟩
    rw [show e.data :: vs ++ es = [e.data] ++ (vs ++ es) by simp]
    refine Reach.trans (Reach.of_handler a hst ?_) (h7.trans h8)
    have hxe : x.marker ≠ .FlowSequenceEnd := hxm ▸ hwe
    simp [flowSequenceEntry, bind, SO.bind, h1, h2, h3, h4, hc, hxk, hxe, h5, h6]
  · cases hu
    have hxk : x.marker = .Key := hxm
    obtain ⟨s5, h5, a5⟩ := at_pop a4
    obtain ⟨s6, h6, a6⟩ := at_setTop .FlowSequenceMappingKey a5
    obtain ⟨lu, lv, rfl, hlu', hlv⟩ := List.map_eq_append_iff.mp hlx
    replace a6 : At drive s6 _ d ((lu ++ lv) ++ (ls ++ l2)) := a6
    rw [List.append_assoc] at a6
    obtain ⟨s7, h7, a7⟩ := run_pair hp1 hp2 (lu := lu) (lv := lv) a6 hlu' hlv ((ht ls hls).append l2)
    obtain ⟨s', h8, a8⟩ := ih s7 k K [] ls l2 a7 rfl hls
    refine ⟨s', ?_, a8⟩
    rw [← List.singleton_append, List.append_assoc]
    refine Reach.trans (Reach.of_handler (e := ⟨x.readAt, x.readAt, _⟩) a hst ?_) (h7.trans h8)
    simp [flowSequenceEntry, bind, SO.bind, h1, h2, h3, h4, hc, hxk, h5, h6, pure, SO.pure]

/-! ### Flow mappings -/

theorem run_flowMap_close {first : Bool} :
    CollRun drive d .FlowMappingKey first [.Token .FlowMappingEnd] [.MappingEnd] := by
  intro s k K pre l1 l2 a hpre hl
  obtain ⟨t, rfl, hw⟩ := wrap_one hl
  have hm : t.marker = .FlowMappingEnd := marker_of_wrap hw
  obtain ⟨s1, h1, a1⟩ := at_popFirst hpre a
  obtain ⟨s2, h2, a2⟩ := at_peek a1
  obtain ⟨s3, h3, a3⟩ := at_fetchMappingEnd (a := t.readAt) (b := t.readAt) a2
  refine ⟨s3, Reach.of_handler (e := ⟨t.readAt, t.readAt, .MappingEnd⟩) a
    (f := flowMappingKey drive first) ?_ ?_, a3⟩
  · intro s hs; simp [stateTransition, bind, SO.bind, SO.get, hs]
  · simp [flowMappingKey, bind, SO.bind, h1, h2, hm, h3, pure, SO.pure]

theorem run_flowMap_trailing :
    CollRun drive d .FlowMappingKey false [.Token .FlowEntry, .Token .FlowMappingEnd]
      [.MappingEnd] := by
  intro s k K pre l1 l2 a hpre hl
  obtain ⟨t, t', rfl, hw, hw'⟩ := wrap_two hl
  have hm : t.marker = .FlowEntry := marker_of_wrap hw
  have hm' : t'.marker = .FlowMappingEnd := marker_of_wrap hw'
  obtain ⟨s1, h1, a1⟩ := at_popFirst hpre a
  obtain ⟨s2, h2, a2⟩ := at_peek a1
  obtain ⟨s3, h3, a3⟩ := at_pop a2
  obtain ⟨s4, h4, a4⟩ := at_peek a3
  obtain ⟨s5, h5, a5⟩ := at_fetchMappingEnd (a := t'.readAt) (b := t'.readAt) a4
  refine ⟨s5, Reach.of_handler (e := ⟨t'.readAt, t'.readAt, .MappingEnd⟩) a
    (f := flowMappingKey drive false) ?_ ?_, a5⟩
  · intro s hs; simp [stateTransition, bind, SO.bind, SO.get, hs]
  · simp [flowMappingKey, popFlowEntry, bind, SO.bind, h1, h2, hm, hm', h3, h4, h5, pure,
      SO.pure]

/-- The value of a pair of a flow mapping. -/
theorem run_flowValue {u : List MaybeToken} {v : List EventData}
    (hv : ValueRun drive d false u v) {k : State} {K : List State} {l1 l2 : List TokenEntry}
    (a : At drive s { top := .FlowMappingValue false, stack := k :: K } d (l1 ++ l2))
    (hl : l1.map TokenEntry.wrap = u) (h2 : Heads l2 [.FlowEntry, .FlowMappingEnd]) :
    ∃ s', Reach drive s v s' ∧
      At drive s' { top := .FlowMappingKey false, stack := k :: K } d l2 := by
  have hst : ∀ s : PS σ, s.parser.state.top = .FlowMappingValue false →
      stateTransition drive 1 s = flowMappingValue drive false s := by
    intro s hs; simp [stateTransition, bind, SO.bind, SO.get, hs]
  rcases hv with ⟨rfl, rfl⟩ | ⟨u', rfl, hp⟩
  · rw [List.map_eq_nil_iff] at hl
    subst hl
    obtain ⟨t, l', rfl, ht⟩ := h2
    obtain ⟨s1, h1, a1⟩ := at_peek a
    obtain ⟨s2, h2, a2⟩ := at_setTop (.FlowMappingKey false) a1
    refine ⟨s2, Reach.of_handler (e := emptyScalar t.readAt .Value) a hst ?_, a2⟩
    simp only [List.mem_cons, List.not_mem_nil, or_false] at ht
    rcases ht with hx | hx <;>
      simp [flowMappingValue, bind, SO.bind, h1, hx, h2, pure, SO.pure]
  · obtain ⟨t, lt, rfl, hw, hlt⟩ := List.map_eq_cons_iff.mp hl
    have hm : t.marker = .Value := marker_of_wrap hw
    obtain ⟨s1, h1, a1⟩ := at_peek a
    obtain ⟨s2, h2', a2⟩ := at_pop a1
    obtain ⟨t', s3, h3, a3, hcase⟩ := peek_part hp hlt
      (ms := [.FlowEntry, .FlowMappingEnd]) (by decide) h2 (.FlowMappingKey false) a2
    rcases hcase with ⟨hmem, s5, h5, rfl, a5⟩ | ⟨hst', s5, e, s6, vs, s7, h5, h6, rfl, h7, a7⟩
    · refine ⟨s5, Reach.of_handler (e := emptyScalar t'.readAt .Value) a hst ?_, a5⟩
      simp only [List.mem_cons, List.not_mem_nil, or_false] at hmem
      rcases hmem with hx | hx <;>
        simp [flowMappingValue, bind, SO.bind, h1, hm, h2', h3, hx, h5, pure, SO.pure]
    · refine ⟨s7, ?_, a7⟩
      rw [show e.data :: vs = [e.data] ++ vs by simp]
      refine Reach.trans (Reach.of_handler a hst ?_) h7
      have := not_mem_of_starts (ms := [.FlowEntry, .FlowMappingEnd]) (by decide) hst'
      simp only [List.mem_cons, List.not_mem_nil, or_false, not_or] at this
      simp [flowMappingValue, bind, SO.bind, h1, hm, h2', h3, this, h5, h6]

/-- A pair of a flow mapping. -/
def FlowPairRun (drive : Drive σ) (d : Directives) (u : List MaybeToken) (v : List EventData) :
    Prop :=
  (∃ x, v = x ++ [leftOut .Value] ∧ Starts u ∧ NodeRun drive d false .Key u x) ∨
  ∃ a b x y, u = .Token .Key :: (a ++ b) ∧ v = x ++ y ∧
    PartRun drive d false .Key a x ∧ ValueRun drive d false b y

theorem run_flowMap_entry {first : Bool} {u ts : List MaybeToken} {v es : List EventData}
    (hp : FlowPairRun drive d u v)
    (ht : ∀ l, l.map TokenEntry.wrap = ts → Heads l [.FlowEntry, .FlowMappingEnd])
    (ih : CollRun drive d .FlowMappingKey false ts es) :
    CollRun drive d .FlowMappingKey first
      ((if first then [] else [.Token .FlowEntry]) ++ (u ++ ts)) (v ++ es) := by
  intro s k K pre l1 l2 a hpre hl
  obtain ⟨lc, lr, rfl, hlc, hlr⟩ := List.map_eq_append_iff.mp hl
  obtain ⟨lu, ls, rfl, hlu, hls⟩ := List.map_eq_append_iff.mp hlr
  have hst : ∀ s : PS σ, s.parser.state.top = .FlowMappingKey first →
      stateTransition drive 1 s = flowMappingKey drive first s := by
    intro s hs; simp [stateTransition, bind, SO.bind, SO.get, hs]
  have hst' : ∀ s : PS σ, s.parser.state.top = .FlowMappingValue true →
      stateTransition drive 1 s = flowMappingValue drive true s := by
    intro s hs; simp [stateTransition, bind, SO.bind, SO.get, hs]
  simp only [List.append_assoc] at a
  obtain ⟨s1, h1, a1⟩ := at_popFirst hpre a
  -- the first token of the entry
  obtain ⟨w, ws, hu⟩ : ∃ w ws, u = w :: ws := by
    rcases hp with ⟨_, -, ⟨w, ws, rfl, -⟩, -⟩ | ⟨_, _, _, _, rfl, -⟩ <;> exact ⟨_, _, rfl⟩
  have hwm : startsNode w.marker = true ∨ w = .Token .Key := by
    rcases hp with ⟨_, -, ⟨w', ws', rfl, h⟩, -⟩ | ⟨_, _, _, _, h, -⟩
    · cases hu; exact .inl h
    · rw [h] at hu; cases hu; exact .inr rfl
  have hwe : w.marker ≠ .FlowMappingEnd := by
    rcases hwm with h | h
    · intro hx; simp [hx, startsNode] at h
    · rw [h]; decide
  obtain ⟨x, lx, rfl, hx, hlx⟩ := List.map_eq_cons_iff.mp (hlu.trans hu)
  have hxm : x.marker = w.marker := marker_of_wrap hx
  -- the comma
  obtain ⟨c, s2, s3, h2, h3, hc, a3⟩ : ∃ c s2 s3, PM.peek drive s1 = (.ok c, s2) ∧
      popFlowEntry drive first c .MissingFlowMappingEntryOrEnd s2 = (.ok (), s3) ∧
      c.marker ≠ .FlowMappingEnd ∧
      At drive s3 { top := .FlowMappingKey first, stack := k :: K } d
        (x :: lx ++ (ls ++ l2)) := by
    cases first with
    | true =>
      simp only [if_true, List.map_eq_nil_iff] at hlc
      subst hlc
      obtain ⟨s2, h2, a2⟩ := at_peek a1
      exact ⟨x, s2, s2, h2, rfl, by rw [hxm]; exact hwe, a2⟩
    | false =>
      obtain ⟨c, rfl, hcw⟩ := wrap_one hlc
      have hcm : c.marker = .FlowEntry := marker_of_wrap hcw
      obtain ⟨s2, h2, a2⟩ := at_peek a1
      obtain ⟨s3, h3, a3⟩ := at_pop a2
      exact ⟨c, s2, s3, h2, by simp [popFlowEntry, hcm, bind, SO.bind, h3, pure, SO.pure],
        by simp [hcm], a3⟩
  obtain ⟨s4, h4, a4⟩ := at_peek a3
  have hh := (ht ls hls).append l2
  rcases hp with ⟨x', rfl, ⟨w', ws', rfl, hs⟩, hr⟩ | ⟨a', b', x', y', rfl, rfl, hp1, hp2⟩
  · cases hu
    have hxk : x.marker ≠ .Key := by
      rw [hxm]; intro h; simp [h, startsNode] at hs
    obtain ⟨s5, h5, a5⟩ := at_pushState (.FlowMappingValue true) a4
    obtain ⟨e, s6, vs, s7, h6, rfl, h7, a7⟩ := hr s5 _ _ _ (x :: lx) (ls ++ l2) a5
      (by simp [hx, hlx]) (hh.follow (by decide))
    -- the value left out
    obtain ⟨s8, h8, a8⟩ : ∃ s8, Reach drive s7 [leftOut .Value] s8 ∧
        At drive s8 { top := .FlowMappingKey false, stack := k :: K } d (ls ++ l2) := by
      obtain ⟨y, ly, hy, -⟩ := hh
      rw [hy] at a7 ⊢
      obtain ⟨r1, g1, b1⟩ := at_peek a7
      obtain ⟨r2, g2, b2⟩ := at_setTop (.FlowMappingKey false) b1
      refine ⟨r2, Reach.of_handler (e := emptyScalar y.readAt .Value) a7 hst' ?_, b2⟩
      simp [flowMappingValue, bind, SO.bind, g1, g2, pure, SO.pure]
    obtain ⟨s', h9, a9⟩ := ih s8 k K [] ls l2 a8 rfl hls
    refine ⟨s', ?_, a9⟩
    rw [show e.data :: vs ++ [leftOut .Value] ++ es = [e.data] ++ (vs ++ [leftOut .Value] ++ es)
      by simp]
    refine Reach.trans (Reach.of_handler a hst ?_) ((h7.trans h8).trans h9)
    have hxe : x.marker ≠ .FlowMappingEnd := hxm ▸ hwe
    simp [flowMappingKey, bind, SO.bind, h1, h2, h3, h4, hc, hxk, hxe, h5, h6]
  · cases hu
    have hxk : x.marker = .Key := hxm
    obtain ⟨s5, h5, a5⟩ := at_pop a4
    obtain ⟨lu, lv, rfl, hlu', hlv⟩ := List.map_eq_append_iff.mp hlx
    replace a5 : At drive s5 _ d ((lu ++ lv) ++ (ls ++ l2)) := a5
    rw [List.append_assoc] at a5
    have hhead : Heads (lv ++ (ls ++ l2)) [.Value, .FlowEntry, .FlowMappingEnd] := by
      rcases hp2 with ⟨rfl, -⟩ | ⟨u'', rfl, -⟩
      · rw [List.map_eq_nil_iff] at hlv
        subst hlv
        exact hh.mono (by decide)
      · exact (heads_of_wrap hlv (by decide)).append _
    obtain ⟨t', s6, h6, a6, hcase⟩ := peek_part hp1 hlu' (by decide) hhead
      (.FlowMappingValue false) a5
    rcases hcase with ⟨hmem, s7, h7, rfl, a7⟩ | ⟨hsn, s7, e, s8, vs, s9, h7, h8, rfl, h9, a9⟩
    · obtain ⟨s8, h8, a8⟩ := run_flowValue hp2 a7 hlv hh
      obtain ⟨s', h9, a9⟩ := ih s8 k K [] ls l2 a8 rfl hls
      refine ⟨s', Reach.trans (Reach.trans ?_ h8) h9, a9⟩
      refine Reach.of_handler (e := emptyScalar t'.readAt .Key) a hst ?_
      simp only [List.mem_cons, List.not_mem_nil, or_false] at hmem
      rcases hmem with hx | hx | hx <;>
        simp [flowMappingKey, bind, SO.bind, h1, h2, h3, h4, hc, hxk, h5, h6, hx, h7, pure, SO.pure]
    · obtain ⟨s10, h10, a10⟩ := run_flowValue hp2 a9 hlv hh
      obtain ⟨s', h11, a11⟩ := ih s10 k K [] ls l2 a10 rfl hls
      refine ⟨s', ?_, a11⟩
      rw [show e.data :: vs ++ y' ++ es = [e.data] ++ (vs ++ y' ++ es) by simp]
      refine Reach.trans (Reach.of_handler a hst ?_) ((h9.trans h10).trans h11)
      have := not_mem_of_starts (ms := [.Value, .FlowEntry, .FlowMappingEnd]) (by decide) hsn
      simp only [List.mem_cons, List.not_mem_nil, or_false, not_or] at this
      simp [flowMappingKey, bind, SO.bind, h1, h2, h3, h4, hc, hxk, h5, h6, this, h7, h8]

/-! ### All nodes -/

theorem TBlockSeq.heads {tags : List (Str × Str)} {ts : List MaybeToken} {es : List EventData}
    (h : TBlockSeq tags ts es) (l : List TokenEntry) (hl : l.map TokenEntry.wrap = ts) :
    Heads l [.BlockEntry, .BlockEnd] := by
  cases h <;> exact heads_of_wrap hl (by decide)

theorem TBlockMap.heads {tags : List (Str × Str)} {ts : List MaybeToken} {es : List EventData}
    (h : TBlockMap tags ts es) (l : List TokenEntry) (hl : l.map TokenEntry.wrap = ts) :
    Heads l [.Key, .BlockEnd] := by
  cases h <;> exact heads_of_wrap hl (by decide)

theorem TFlowSeq.heads {tags : List (Str × Str)} {ts : List MaybeToken} {es : List EventData}
    (h : TFlowSeq tags false ts es) (l : List TokenEntry) (hl : l.map TokenEntry.wrap = ts) :
    Heads l [.FlowEntry, .FlowSequenceEnd] := by
  cases h <;> exact heads_of_wrap hl (by decide)

theorem TFlowMap.heads {tags : List (Str × Str)} {ts : List MaybeToken} {es : List EventData}
    (h : TFlowMap tags false ts es) (l : List TokenEntry) (hl : l.map TokenEntry.wrap = ts) :
    Heads l [.FlowEntry, .FlowMappingEnd] := by
  cases h <;> exact heads_of_wrap hl (by decide)

theorem run_node {b : Bool} {k : NodeKind} {u : List MaybeToken} {v : List EventData}
    (h : TNode d.tags b k u v) : NodeRun drive d b k u v := by
  refine TNode.rec (tags := d.tags)
    (motive_1 := fun b k u v _ => NodeRun drive d b k u v)
    (motive_2 := fun b k u v _ => PartRun drive d b k u v)
    (motive_3 := fun b u v _ => ValueRun drive d b u v)
    (motive_4 := fun ts es _ => ∀ first, CollRun drive d .BlockSequenceEntry first ts es)
    (motive_5 := fun ts es _ => ∀ first, CollRun drive d .BlockMappingKey first ts es)
    (motive_6 := fun first ts es _ => CollRun drive d .FlowSequenceEntry first ts es)
    (motive_7 := fun u v _ => EntryRun drive d u v)
    (motive_8 := fun first ts es _ => CollRun drive d .FlowMappingKey first ts es)
    (motive_9 := fun u v _ => FlowPairRun drive d u v)
    ?_ ?_ ?_ ?_ ?_ ?_ ?_ ?_ ?_ ?_ ?_ ?_ ?_ ?_ ?_ ?_ ?_ ?_ ?_ ?_ ?_ ?_ ?_ ?_ ?_ ?_ ?_ h
  · exact fun b k a => run_alias b k a
  · exact fun b k hp hu ht => run_scalar b k hp hu ht
  · exact fun b k hp hu hne => run_empty b k hp hu hne
  · intro ps anchor tag ts es kind hp hu he ih
    refine run_coll hp (by decide) (by intro a b; simp [validateEventTag, (validateTag_usable hu).2])
      ?_ (ih true)
    intro s s' start t ht hpk
    have ht : t.marker = .BlockSequenceStart := ht
    simp only [nodeContent, bind, SO.bind, hpk, ht, if_true]
  · intro ps anchor tag ts es kind hp hu he ih
    refine run_coll hp (by decide) (by intro a b; simp [validateEventTag, (validateTag_usable hu).2])
      ?_ (ih true)
    intro s s' start t ht hpk
    have ht : t.marker = .BlockMappingStart := ht
    simp only [nodeContent, bind, SO.bind, hpk, ht, if_true]
  · intro ps anchor tag ts es b kind hp hu he ih
    refine run_coll hp (by decide) (by intro a b; simp [validateEventTag, (validateTag_usable hu).2])
      ?_ ih
    intro s s' start t ht hpk
    have ht : t.marker = .FlowSequenceStart := ht
    simp only [nodeContent, bind, SO.bind, hpk, ht]
  · intro ps anchor tag ts es b kind hp hu he ih
    refine run_coll hp (by decide) (by intro a b; simp [validateEventTag, (validateTag_usable hu).2])
      ?_ ih
    intro s s' start t ht hpk
    have ht : t.marker = .FlowMappingStart := ht
    simp only [nodeContent, bind, SO.bind, hpk, ht]
  · exact fun b k => .inl ⟨rfl, rfl⟩
  · exact fun h ih => .inr ⟨TNode.starts h, ih⟩
  · exact fun b => .inl ⟨rfl, rfl⟩
  · exact fun h ih => .inr ⟨_, rfl, ih⟩
  · exact fun first => run_blockSeq_close
  · exact fun h t ihh iht first => run_blockSeq_entry ihh (TBlockSeq.heads t) (iht false)
  · exact fun first => run_blockMap_close
  · exact fun hk hv t ihk ihv iht first =>
      run_blockMap_pair ihk ihv (TBlockMap.heads t) (iht false)
  · exact fun first => run_flowSeq_close
  · exact run_flowSeq_trailing
  · exact fun h t ihh iht => run_flowSeq_entry (first := true) ihh (TFlowSeq.heads t) iht
  · exact fun h t ihh iht => run_flowSeq_entry (first := false) ihh (TFlowSeq.heads t) iht
  · exact fun h ih => .inl ⟨TNode.starts h, ih⟩
  · exact fun hk hv ihk ihv => .inr ⟨_, _, _, _, rfl, rfl, ihk, ihv⟩
  · exact fun first => run_flowMap_close
  · exact run_flowMap_trailing
  · exact fun h t ihh iht => run_flowMap_entry (first := true) ihh (TFlowMap.heads t) iht
  · exact fun h t ihh iht => run_flowMap_entry (first := false) ihh (TFlowMap.heads t) iht
  · exact fun h ih => .inl ⟨_, rfl, TNode.starts h, ih⟩
  · exact fun hk hv ihk ihv => .inr ⟨_, _, _, _, rfl, rfl, ihk, ihv⟩

end Parser

end Yary
