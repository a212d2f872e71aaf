import Verif.Proof.Moved.Block
import Verif.Proof.Moved.Parse

/-! # The scanner further on in a text -/

namespace Yary

/-- A saved key further on. -/
def KeySave.mv (w l : Nat) (k : KeySave) : KeySave := { k with stats := k.stats.mv w l }

/-- An indent further on. -/
def IndentEntry.mv (l : Nat) (e : IndentEntry) : IndentEntry := { e with line := e.line + l }

/-- The indents further on. -/
def Context.mv (l : Nat) (x : Context) : Context := { x with indents := x.indents.map (IndentEntry.mv l) }

end Yary

namespace Yary.Moved

open Yary.Shift (Alike)
open Yary.Scan

variable {opts : SFlags} {w l : Nat}

/-- A scanner in the same state, further on. -/
structure ScR (w l : Nat) (sc sc' : Scanner) : Prop where
  state : sc'.state = sc.state
  simple : sc'.simpleKeyAllowed = sc.simpleKeyAllowed
  stats : sc'.stats = sc.stats.mv w l
  key : sc'.key = sc.key.map (KeySave.mv w l)
  context : sc'.context = sc.context.mv l

/-- And with the same text ahead of it. -/
structure SSR (w l : Nat) (s s' : SS) : Prop where
  sc : ScR w l s.sc s'.sc
  buf : s'.buf = s.buf
  out : s'.out = s.out.map (TokenEntry.mv w l)

/-- Two methods which do the same further on; nothing is said of the state after an error. -/
abbrev Same {α β : Type} (w l : Nat) (Q : α → β → Prop) (x : Scan α) (y : Scan β) : Prop := Rel (fun _ => True) (SSR w l) Q x y

theorem get_mv {γ δ : Type} {Q : γ → δ → Prop} {f : SS → Scan γ} {g : SS → Scan δ} (h : ∀ s t, SSR w l s t → Same w l Q (f s) (g t)) :
    Same w l Q (Scan.get >>= f) (Scan.get >>= g) := Rel.get h

theorem upd_mv {f g : Scanner → Scanner} (h : ∀ a b, ScR w l a b → ScR w l (f a) (g b)) : Same w l Eq (upd f) (upd g) :=
  Rel.modify fun _ _ hs => ⟨h _ _ hs.sc, hs.buf, hs.out⟩

theorem simple_mv (b : Bool) : Same w l Eq (upd fun sc => { sc with simpleKeyAllowed := b }) (upd fun sc => { sc with simpleKeyAllowed := b }) :=
  upd_mv fun _ _ h => ⟨h.state, rfl, h.stats, h.key, h.context⟩

theorem enqueue_mv (t : MaybeToken) (r : Nat) : Same w l Eq (enqueue t r) (enqueue (t.mv w l) (r + w)) :=
  Rel.modify fun _ _ hs => ⟨hs.sc, hs.buf, by dsimp only; rw [hs.out, List.map_append]; rfl⟩

theorem read_mv {s t : SS} (h : SSR w l s t) : t.sc.stats.read = s.sc.stats.read + w := by rw [h.sc.stats]; rfl
theorem lines_mv {s t : SS} (h : SSR w l s t) : t.sc.stats.lines = s.sc.stats.lines + l := by rw [h.sc.stats]; rfl
theorem col_mv {s t : SS} (h : SSR w l s t) : t.sc.stats.column = s.sc.stats.column := by rw [h.sc.stats]; rfl
theorem isBlock_mv {s t : SS} (h : SSR w l s t) : t.sc.context.isBlock = s.sc.context.isBlock := by rw [h.sc.context]; rfl
theorem isFlow_mv {s t : SS} (h : SSR w l s t) : t.sc.context.isFlow = s.sc.context.isFlow := by rw [h.sc.context]; rfl
theorem level_mv {s t : SS} (h : SSR w l s t) : t.sc.context.level = s.sc.context.level := by rw [h.sc.context]; rfl

theorem push_mv' (t : Token) : Same w l Eq (Scan.push t) (Scan.push t) := by
  refine get_mv fun a b h => ?_
  rw [read_mv h]
  exact enqueue_mv _ _

theorem advance_mv (k : Nat) : Same w l Eq (Scan.advance k) (Scan.advance k) := by
  intro s t h
  have ha := adv_mv (w := w) (l := l) (c := ⟨s.buf, s.sc.stats⟩) (c' := ⟨t.buf, t.sc.stats⟩) ⟨h.buf, h.sc.stats⟩ k
  unfold Scan.advance
  generalize Cur.adv ⟨s.buf, s.sc.stats⟩ k = x at ha ⊢
  generalize Cur.adv ⟨t.buf, t.sc.stats⟩ k = y at ha ⊢
  cases x <;> cases y <;> first | exact ha.elim | skip
  · exact .ok rfl ⟨⟨h.sc.state, h.sc.simple, ha.2, h.sc.key, h.sc.context⟩, ha.1, h.out⟩
  · cases ha; exact .err (.inl trivial)
  · exact .panic
  · exact .diverge (.inl trivial)

theorem takeKey_mv : Same w l (fun k k' => k' = k.map (KeySave.mv w l)) Scan.takeKey Scan.takeKey := by
  refine get_mv fun a b h => ?_
  exact .bind (upd_mv fun _ _ h => ⟨h.state, h.simple, h.stats, rfl, h.context⟩) fun _ _ _ => .pure h.sc.key

theorem removeSavedKey_mv : Same w l Eq Scan.removeSavedKey Scan.removeSavedKey := by
  refine .bind takeKey_mv ?_
  rintro k _ rfl
  cases k with
  | none => exact .pure rfl
  | some k => exact .ite .fail (.pure rfl)

theorem saveKey_mv : Same w l Eq Scan.saveKey Scan.saveKey := by
  refine get_mv fun a b h => ?_
  dsimp only
  rw [isBlock_mv h, level_mv h, col_mv h, h.sc.simple, h.sc.stats]
  refine .ite (.bind removeSavedKey_mv fun _ _ _ => upd_mv fun _ _ h => ⟨h.state, h.simple, h.stats, rfl, h.context⟩) (.pure rfl)

theorem popLoop_mv {column : Option Nat} : ∀ (es : List IndentEntry) (i : Nat),
    popLoop column (es.map (IndentEntry.mv l)) i =
      ((popLoop column es i).1.map (IndentEntry.mv l), (popLoop column es i).2.1, (popLoop column es i).2.2)
  | [], i => rfl
  | e :: es, i => by
    simp only [List.map_cons, popLoop]
    split
    · have := popLoop_mv (column := column) es (IndentEntry.mv l e).indent
      rw [this]
      rfl
    · rfl

theorem indentDecrement_mv {column : Option Nat} {x : Context} :
    (x.mv l).indentDecrement column = ((x.indentDecrement column).1.mv l, (x.indentDecrement column).2) := by
  unfold Context.indentDecrement
  have hb : (x.mv l).isBlock = x.isBlock := rfl
  rw [hb]
  split
  · dsimp only
    have := popLoop_mv (l := l) (column := column) x.indents x.indent
    rw [show (x.mv l).indents = x.indents.map (IndentEntry.mv l) from rfl, show (x.mv l).indent = x.indent from rfl, this]
    rfl
  · rfl

theorem unrollIndent_mv (column : Option Nat) : Same w l Eq (Scan.unrollIndent column) (Scan.unrollIndent column) := by
  refine Rel.modify fun s t h => ?_
  dsimp only
  rw [h.sc.context, indentDecrement_mv, read_mv h, h.out]
  exact ⟨⟨h.sc.state, h.sc.simple, h.sc.stats, h.sc.key, rfl⟩, h.buf, by simp [TokenEntry.mv, MaybeToken.mv]⟩

theorem lastIsMap_mv {x : Context} : lastIsMap (x.mv l) = lastIsMap x := by
  unfold lastIsMap Context.mv
  cases x.indents <;> rfl

theorem indentIncrement_mv {x : Context} {c n : Nat} {map : Bool} : (x.mv l).indentIncrement c (n + l) map = (x.indentIncrement c n map).mv l := rfl

theorem flagZero_mv {x : Context} : flagZero (x.mv l) = (flagZero x).mv l := by
  obtain ⟨a, b, es, c⟩ := x
  cases es <;> rfl

theorem rollIndent_mv (mark line column : Nat) (map : Bool) :
    Same w l Eq (Scan.rollIndent mark line column map) (Scan.rollIndent (mark + w) (line + l) column map) := by
  refine get_mv fun a b h => ?_
  dsimp only
  rw [isBlock_mv h, level_mv h, h.sc.context, lastIsMap_mv, indentIncrement_mv, flagZero_mv]
  have he := enqueue_mv (w := w) (l := l) (.Token (if map then .BlockMappingStart else .BlockSequenceStart)) mark
  refine .ite (.ite (.bind (upd_mv fun _ _ h => ⟨h.state, h.simple, h.stats, h.key, rfl⟩) fun _ _ _ => he)
    (.ite (.bind (upd_mv fun _ _ h => ⟨h.state, h.simple, h.stats, h.key, rfl⟩) fun _ _ _ => he) (.pure rfl))) (.pure rfl)

theorem sub_same {α : Type} (f : Cur → Out ScanError α) : Same w l Eq (Scan.sub {} f) (Scan.sub {} f) := by
  refine get_mv fun a b h => ?_
  rw [h.buf]
  intro s t hs
  unfold SO.lift
  cases f ⟨a.buf, {}⟩ with
  | ok x => exact .ok rfl hs
  | err e => exact .err (.inl trivial)
  | panic => exact .panic
  | diverge => exact .diverge (.inl trivial)

theorem lift_same {α : Type} (x : Out ScanError α) : Same w l Eq (SO.lift x) (SO.lift x) := by
  intro s t hs
  unfold SO.lift
  cases x with
  | ok x => exact .ok rfl hs
  | err e => exact .err (.inl trivial)
  | panic => exact .panic
  | diverge => exact .diverge (.inl trivial)

theorem lift_mv {α β : Type} {Q : α → β → Prop} {x : Out ScanError α} {y : Out ScanError β} (h : Alike Q x y) : Same w l Q (SO.lift x) (SO.lift y) := by
  intro s t hs
  unfold SO.lift
  cases x <;> cases y <;> first | exact h.elim | skip
  · exact .ok h hs
  · cases h; exact .err (.inl trivial)
  · exact .panic
  · exact .diverge (.inl trivial)

theorem commit_mv (buf : Str) (m : MStats) : Same w l Eq (Scan.commit buf m) (Scan.commit buf (m.mv w l)) := by
  intro s t h
  unfold Scan.commit
  rw [h.buf]
  split
  · exact .ok rfl ⟨⟨h.sc.state, h.sc.simple, rfl, h.sc.key, h.sc.context⟩, rfl, h.out⟩
  · exact .panic

theorem add_mv {m r : MStats} : (m.mv w l).add r = (m.add r).mv w l := by
  simp only [MStats.add, MStats.update, MStats.mv, MStats.mk.injEq]
  refine ⟨by omega, by omega, trivial⟩

theorem fetchStreamEnd_mv : Same w l Eq Scan.fetchStreamEnd Scan.fetchStreamEnd := by
  refine get_mv fun a b h => ?_
  rw [h.sc.state, h.buf]
  refine .ite (.pure rfl) (.ite ?_ (.pure rfl))
  exact .bind (unrollIndent_mv _) fun _ _ _ => .bind removeSavedKey_mv fun _ _ _ =>
    .bind (upd_mv fun _ _ h => ⟨rfl, h.simple, h.stats, h.key, h.context⟩) fun _ _ _ => push_mv' _

theorem fetchDocumentMarker_mv (start : Bool) : Same w l Eq (Scan.fetchDocumentMarker start) (Scan.fetchDocumentMarker start) :=
  .bind (unrollIndent_mv _) fun _ _ _ => .bind removeSavedKey_mv fun _ _ _ => .bind (simple_mv _) fun _ _ _ =>
    .bind (advance_mv _) fun _ _ _ => push_mv' _

/-- What is read is added to what was read before. -/
theorem commitAdd_mv (c : Cur) : Same w l Eq (do let s ← Scan.get; Scan.commit c.buf (s.sc.stats.add c.stats))
    (do let s ← Scan.get; Scan.commit c.buf (s.sc.stats.add c.stats)) := by
  refine get_mv fun a b h => ?_
  rw [h.sc.stats, add_mv]
  exact commit_mv _ _

theorem commitThen_mv {c : Cur} {k : Scan Unit} (hk : Same w l Eq k k) :
    Same w l Eq (do let s ← Scan.get; Scan.commit c.buf (s.sc.stats.add c.stats); k) (do let s ← Scan.get; Scan.commit c.buf (s.sc.stats.add c.stats); k) := by
  refine get_mv fun a b h => ?_
  rw [h.sc.stats, add_mv]
  exact .bind (commit_mv _ _) fun _ _ _ => hk

theorem fetchDirective_mv : Same w l Eq (Scan.fetchDirective opts) (Scan.fetchDirective opts) := by
  refine .bind (sub_same _) ?_
  rintro ⟨token, c⟩ _ rfl
  exact .bind (unrollIndent_mv _) fun _ _ _ => .bind removeSavedKey_mv fun _ _ _ => .bind (simple_mv _) fun _ _ _ => commitThen_mv (push_mv' _)

theorem finish_mv (t t' : MaybeToken) (ht : t' = t.mv w l) (c : Cur) : Same w l Eq (Scan.finish t c) (Scan.finish t' c) := by
  subst ht
  refine .bind saveKey_mv fun _ _ _ => .bind (simple_mv _) fun _ _ _ => get_mv fun a b h => ?_
  rw [h.sc.stats, add_mv]
  refine .bind (commit_mv _ _) fun _ _ _ => get_mv fun a b h => ?_
  rw [read_mv h]
  exact enqueue_mv _ _

theorem fetchTag_mv : Same w l Eq (Scan.fetchTag opts) (Scan.fetchTag opts) := by
  refine .bind (sub_same _) ?_
  rintro ⟨token, c⟩ _ rfl
  exact finish_mv _ _ rfl _

theorem fetchAnchor_mv : Same w l Eq (Scan.fetchAnchor opts) (Scan.fetchAnchor opts) := by
  refine get_mv fun a b h => ?_
  rw [h.buf]
  refine .bind (sub_same _) ?_
  rintro ⟨token, c⟩ _ rfl
  exact finish_mv _ _ rfl _

/-- Quoted scalars count from their beginning, deferred or not. -/
theorem flow_stays {single : Bool} {c c1 : Cur} {t : MaybeToken} (h : scanFlow opts single c = .ok (t, c1)) : t.mv w l = t := by
  unfold scanFlow at h
  split at h
  · obtain ⟨⟨d, c2⟩, h1, h2⟩ := Out.bind_eq_ok.1 h
    cases h2
    unfold scanFlowLazy at h1
    obtain ⟨_, -, h1⟩ := Out.bind_eq_ok.1 h1
    obtain ⟨_, -, h1⟩ := Out.bind_eq_ok.1 h1
    obtain ⟨_, -, h1⟩ := Out.bind_eq_ok.1 h1
    obtain ⟨_, -, h1⟩ := Out.bind_eq_ok.1 h1
    cases h1
    rfl
  · obtain ⟨⟨d, c2⟩, h1, h2⟩ := Out.bind_eq_ok.1 h
    cases h2
    rfl

theorem fetchFlowScalar_mv : Same w l Eq (Scan.fetchFlowScalar opts) (Scan.fetchFlowScalar opts) := by
  refine get_mv fun a b h => ?_
  rw [h.buf]
  have hs : Same w l (fun (x y : MaybeToken × Cur) => y.2 = x.2 ∧ y.1 = x.1.mv w l)
      (Scan.sub {} (scanFlow opts (startsWith a.buf 0x27))) (Scan.sub {} (scanFlow opts (startsWith a.buf 0x27))) := by
    refine get_mv fun a' b' h' => ?_
    rw [h'.buf]
    intro s t hs
    unfold SO.lift
    cases hx : scanFlow opts (startsWith a.buf 0x27) ⟨a'.buf, {}⟩ with
    | ok x => exact .ok ⟨rfl, (flow_stays hx).symm⟩ hs
    | err e => exact .err (.inl trivial)
    | panic => exact .panic
    | diverge => exact .diverge (.inl trivial)
  refine .bind hs ?_
  rintro ⟨t, c⟩ ⟨t', c'⟩ ⟨h1, h2⟩
  dsimp only at h1 h2
  subst h1
  exact finish_mv _ _ h2 _

theorem fetchPlainScalar_mv : Same w l Eq (Scan.fetchPlainScalar opts) (Scan.fetchPlainScalar opts) := by
  refine get_mv fun a b h => ?_
  rw [level_mv h, isBlock_mv h, h.sc.stats]
  have hs : Same w l (Out' w l) (Scan.sub a.sc.stats (scanPlain opts (levelSucc a.sc.context.level) a.sc.context.isBlock))
      (Scan.sub (a.sc.stats.mv w l) (scanPlain opts (levelSucc a.sc.context.level) a.sc.context.isBlock)) := by
    refine get_mv fun a' b' h' => ?_
    rw [h'.buf]
    exact lift_mv scanPlain_mv
  refine .bind hs ?_
  rintro ⟨t, c⟩ ⟨t', c'⟩ ⟨h1, h2, h3⟩
  dsimp only at h1 h2 h3 ⊢
  rw [h1, h2, h3]
  exact .bind saveKey_mv fun _ _ _ => .bind (simple_mv _) fun _ _ _ => .bind (commit_mv _ _) fun _ _ _ => enqueue_mv _ _

theorem fetchBlockScalar_mv (fold : Bool) : Same w l Eq (Scan.fetchBlockScalar opts fold) (Scan.fetchBlockScalar opts fold) := by
  refine .bind removeSavedKey_mv fun _ _ _ => .bind (simple_mv _) fun _ _ _ => get_mv fun a b h => ?_
  rw [level_mv h, h.sc.stats]
  have hs : Same w l (Out' w l) (Scan.sub a.sc.stats (scanBlock opts (a.sc.context.level.getD 0) fold))
      (Scan.sub (a.sc.stats.mv w l) (scanBlock opts (a.sc.context.level.getD 0) fold)) := by
    refine get_mv fun a' b' h' => ?_
    rw [h'.buf]
    exact lift_mv scanBlock_mv
  refine .bind hs ?_
  rintro ⟨t, c⟩ ⟨t', c'⟩ ⟨h1, h2, h3⟩
  dsimp only at h1 h2 h3 ⊢
  rw [h1, h2, h3]
  exact .bind (commit_mv _ _) fun _ _ _ => enqueue_mv _ _

theorem rollHere_mv (map : Bool) : Same w l Eq (Scan.rollHere map) (Scan.rollHere map) := by
  refine get_mv fun a b h => ?_
  rw [read_mv h, lines_mv h, col_mv h]
  exact rollIndent_mv _ _ _ _

theorem explicitKeyCheck_mv : Same w l Eq Scan.explicitKeyCheck Scan.explicitKeyCheck := by
  refine get_mv fun a b h => ?_
  rw [isBlock_mv h, h.sc.simple]
  exact .ite (.ite .fail (rollHere_mv _)) (.pure rfl)

theorem fetchExplicitKey_mv : Same w l Eq Scan.fetchExplicitKey Scan.fetchExplicitKey := by
  refine get_mv fun a b h => ?_
  rw [isBlock_mv h]
  exact .bind explicitKeyCheck_mv fun _ _ _ => .bind removeSavedKey_mv fun _ _ _ => .bind (simple_mv _) fun _ _ _ =>
    .bind (advance_mv _) fun _ _ _ => push_mv' _

theorem valueSaved_mv (k : KeySave) : Same w l Eq (Scan.valueSaved k) (Scan.valueSaved (k.mv w l)) :=
  .bind (rollIndent_mv k.stats.read k.stats.lines k.stats.column true) fun _ _ _ => .bind (enqueue_mv (.Token .Key) k.stats.read) fun _ _ _ => simple_mv _

theorem valueCheck_mv : Same w l Eq Scan.valueCheck Scan.valueCheck := by
  refine get_mv fun a b h => ?_
  rw [isBlock_mv h, h.sc.simple]
  exact .ite (.ite .fail (rollHere_mv _)) (.pure rfl)

theorem valueBare_mv : Same w l Eq Scan.valueBare Scan.valueBare := by
  refine get_mv fun a b h => ?_
  rw [isBlock_mv h]
  exact .bind valueCheck_mv fun _ _ _ => simple_mv _

theorem fetchValue_mv : Same w l Eq Scan.fetchValue Scan.fetchValue := by
  refine .bind takeKey_mv ?_
  rintro k _ rfl
  refine .bind (Q := Eq) ?_ fun _ _ _ => .bind (advance_mv _) fun _ _ _ => push_mv' _
  cases k with
  | none => exact valueBare_mv
  | some k => exact .ite (valueSaved_mv k) valueBare_mv

theorem fetchFlowStart_mv (map : Bool) : Same w l Eq (Scan.fetchFlowStart map) (Scan.fetchFlowStart map) :=
  .bind (upd_mv fun _ _ h => ⟨h.state, h.simple, h.stats, h.key, by dsimp only; rw [h.context]; rfl⟩) fun _ _ _ => .bind (advance_mv _) fun _ _ _ =>
    .bind (push_mv' _) fun _ _ _ => .bind saveKey_mv fun _ _ _ => simple_mv _

theorem flowDecrement_mv {x : Context} : Alike (fun a b => b = Context.mv l a) x.flowDecrement (x.mv l).flowDecrement := by
  obtain ⟨f, i, es, s⟩ := x
  cases f <;> rfl

theorem fetchFlowEnd_mv (map : Bool) : Same w l Eq (Scan.fetchFlowEnd map) (Scan.fetchFlowEnd map) := by
  refine .bind removeSavedKey_mv fun _ _ _ => get_mv fun a b h => ?_
  rw [h.sc.context]
  refine .bind (lift_mv flowDecrement_mv) ?_
  rintro x _ rfl
  exact .bind (upd_mv fun _ _ h => ⟨h.state, rfl, h.stats, h.key, rfl⟩) fun _ _ _ => .bind (advance_mv _) fun _ _ _ => push_mv' _

theorem fetchFlowEntry_mv : Same w l Eq Scan.fetchFlowEntry Scan.fetchFlowEntry :=
  .bind removeSavedKey_mv fun _ _ _ => .bind (simple_mv _) fun _ _ _ => .bind (advance_mv _) fun _ _ _ => push_mv' _

theorem touchZero_mv {m : MStats} {x : Context} : touchZero (m.mv w l) (x.mv l) = (touchZero m x).mv l := by
  obtain ⟨f, i, es, s⟩ := x
  cases es with
  | nil => rfl
  | cons e es =>
    unfold touchZero
    simp only [Context.mv, List.map_cons, MStats.mv, IndentEntry.mv, Nat.add_lt_add_iff_right]
    split <;> rfl

theorem fetchBlockEntry_mv : Same w l Eq Scan.fetchBlockEntry Scan.fetchBlockEntry := by
  refine .bind (Q := Eq) ?_ fun _ _ _ => .bind (upd_mv fun _ _ h => ⟨h.state, h.simple, h.stats, h.key, by dsimp only; rw [h.context, h.stats, touchZero_mv]⟩)
    fun _ _ _ => .bind removeSavedKey_mv fun _ _ _ => .bind (simple_mv _) fun _ _ _ => .bind (advance_mv _) fun _ _ _ => push_mv' _
  refine get_mv fun a b h => ?_
  rw [isBlock_mv h, h.sc.simple]
  exact .ite (rollHere_mv _) .fail

theorem expireKey_mv : Same w l Eq Scan.expireKey Scan.expireKey := by
  refine get_mv fun a b h => ?_
  rw [h.sc.key, lines_mv h, read_mv h]
  cases a.sc.key with
  | none => exact .pure rfl
  | some k =>
    have h1 : (k.mv w l).stats.lines = k.stats.lines + l := rfl
    have h2 : (k.mv w l).stats.read + 1024 = k.stats.read + 1024 + w := by show k.stats.read + w + 1024 = _; omega
    have h3 : (k.mv w l).possible = k.possible := rfl
    simp only [Option.map_some, h1, h2, h3, Nat.add_lt_add_iff_right]
    exact .ite (.ite .fail (upd_mv fun _ _ h => ⟨h.state, h.simple, h.stats, rfl, h.context⟩)) (.pure rfl)

theorem popZeroIndent_mv : Same w l Eq Scan.popZeroIndent Scan.popZeroIndent := by
  refine Rel.modify fun s t h => ?_
  obtain ⟨⟨of, st, si, stats, key, ⟨f, i, es, sta⟩⟩, buf, out⟩ := s
  obtain ⟨⟨of', st', si', stats', key', cx⟩, buf', out'⟩ := t
  obtain ⟨⟨h1, h2, h3, h4, h5⟩, h6, h7⟩ := h
  dsimp only at h1 h2 h3 h4 h5 h6 h7
  subst h1 h2 h3 h4 h5 h6 h7
  cases es with
  | nil => exact ⟨⟨rfl, rfl, rfl, rfl, rfl⟩, rfl, rfl⟩
  | cons e es =>
    simp only [Context.mv, List.map_cons, MStats.mv, IndentEntry.mv, Nat.add_lt_add_iff_right]
    split
    · exact ⟨⟨rfl, rfl, rfl, rfl, rfl⟩, rfl, by simp [TokenEntry.mv, MaybeToken.mv]⟩
    · exact ⟨⟨rfl, rfl, rfl, rfl, rfl⟩, rfl, rfl⟩

theorem eatWhitespace_mv : Same w l Eq (Scan.eatWhitespace opts) (Scan.eatWhitespace opts) := by
  refine .bind (sub_same _) ?_
  rintro c _ rfl
  exact .bind (upd_mv fun _ _ h => ⟨h.state, by dsimp only; rw [h.simple], h.stats, h.key, h.context⟩) fun _ _ _ => commitAdd_mv c

theorem dispatch_mv {x : Context} {col : Nat} {s : Str} : dispatch (x.mv l) col s = dispatch x col s := rfl

theorem run_mv (f : Fetch) : Same w l Eq (Scan.run opts f) (Scan.run opts f) := by
  cases f with
  | directive => exact fetchDirective_mv
  | marker s => exact fetchDocumentMarker_mv s
  | flowStart m => exact fetchFlowStart_mv m
  | flowEnd m => exact fetchFlowEnd_mv m
  | flowEntry => exact fetchFlowEntry_mv
  | blockEntry => exact fetchBlockEntry_mv
  | explicitKey => exact fetchExplicitKey_mv
  | value => exact fetchValue_mv
  | anchor => exact fetchAnchor_mv
  | tag => exact fetchTag_mv
  | block f => exact fetchBlockScalar_mv f
  | quoted => exact fetchFlowScalar_mv
  | plain => exact fetchPlainScalar_mv
  | unknown => exact .fail

theorem fetchNext_mv : Same w l Eq (Scan.fetchNext opts) (Scan.fetchNext opts) := by
  refine get_mv fun a b h => ?_
  rw [h.buf, h.sc.state, h.sc.context, col_mv h, dispatch_mv]
  exact .ite fetchStreamEnd_mv (.bind (lift_same _) fun _ _ _ => run_mv _)

/-- What follows the white space before a token. -/
def afterSpace (opts : SFlags) : Scan Unit := do
  expireKey
  let s ← Scan.get
  unrollIndent (some s.sc.stats.column)
  popZeroIndent
  fetchNext opts

theorem afterSpace_mv : Same w l Eq (afterSpace opts) (afterSpace opts) := by
  refine .bind expireKey_mv fun _ _ _ => get_mv fun a b h => ?_
  rw [col_mv h]
  exact .bind (unrollIndent_mv _) fun _ _ _ => .bind popZeroIndent_mv fun _ _ _ => fetchNext_mv

theorem fetchStreamStart_mv : Same w l Eq Scan.fetchStreamStart Scan.fetchStreamStart :=
  .bind (upd_mv fun _ _ h => ⟨rfl, rfl, h.stats, h.key, h.context⟩) fun _ _ _ => push_mv' _

/-- A token further on is the same, further on. -/
theorem scanNextToken_mv : Same w l Eq (Scan.scanNextToken opts) (Scan.scanNextToken opts) := by
  refine get_mv fun a b h => ?_
  rw [h.sc.state]
  refine .ite fetchStreamStart_mv ?_
  refine .bind (Q := Eq) ?_ fun _ _ _ => fetchNext_mv
  refine .bind eatWhitespace_mv fun _ _ _ => .bind expireKey_mv fun _ _ _ => get_mv fun a b h => ?_
  rw [col_mv h]
  exact .bind (unrollIndent_mv _) fun _ _ _ => popZeroIndent_mv

end Yary.Moved
