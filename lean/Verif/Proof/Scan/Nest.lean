import Verif.Proof.Scan.Order
import Verif.Spec.Tokens

/-! # Open flow and block collections -/

namespace Yary

open Spec

/-- What a token does to the numbers of open flow and block collections. -/
def nestStep (st : Nat × Nat) (m : Marker) : Option (Nat × Nat) :=
  if isFlowStart m then some (st.1 + 1, st.2)
  else if isFlowEnd m then (if 0 < st.1 then some (st.1 - 1, st.2) else none)
  else if isBlockStart m then (if st.1 = 0 then some (st.1, st.2 + 1) else none)
  else if isBlockEnd m then (if 0 < st.2 then some (st.1, st.2 - 1) else none)
  else if isBetween m then (if st.1 = 0 ∧ st.2 ≠ 0 then none else some st)
  else some st

/-- What tokens do to the numbers of open flow and block collections. -/
def nest (st : Nat × Nat) : List TokenEntry → Option (Nat × Nat)
  | [] => some st
  | e :: l => (nestStep st e.marker).bind fun st => nest st l

theorem nest_append (st : Nat × Nat) (a b : List TokenEntry) :
    nest st (a ++ b) = (nest st a).bind fun st => nest st b := by
  induction a generalizing st with
  | nil => rfl
  | cons e a ih =>
    simp only [List.cons_append, nest]
    cases nestStep st e.marker with
    | none => rfl
    | some st' => simp [ih]

theorem nest_snoc {st st' : Nat × Nat} {a : List TokenEntry} (e : TokenEntry) (h : nest st a = some st') :
    nest st (a ++ [e]) = nestStep st' e.marker := by
  rw [nest_append, h]
  simp [nest]

/-- Neither the end of a flow collection nor between documents. -/
def Stays (m : Marker) : Prop := isFlowEnd m = false ∧ isBetween m = false

theorem nestStep_up {f b f' b' : Nat} {m : Marker} (hm : Stays m) (h : nestStep (f, b) m = some (f', b')) :
    f ≤ f' ∧ (f' = 0 → nestStep (0, b + 1) m = some (0, b' + 1)) := by
  obtain ⟨h1, h2⟩ := hm
  unfold nestStep at h ⊢
  simp only [h1, h2, Bool.false_eq_true, ↓reduceIte] at h ⊢
  split at h
  · simp only [Option.some.injEq, Prod.mk.injEq] at h
    exact ⟨by omega, fun h0 => by omega⟩
  · split at h
    · split at h
      · simp only [Option.some.injEq, Prod.mk.injEq] at h
        obtain ⟨rfl, rfl⟩ := h
        exact ⟨Nat.le_refl _, fun _ => by simp [*]⟩
      · cases h
    · split at h
      · split at h
        · simp only [Option.some.injEq, Prod.mk.injEq] at h
          obtain ⟨rfl, rfl⟩ := h
          exact ⟨Nat.le_refl _, fun _ => by simp [*]; omega⟩
        · cases h
      · simp only [Option.some.injEq, Prod.mk.injEq] at h
        obtain ⟨rfl, rfl⟩ := h
        exact ⟨Nat.le_refl _, fun _ => by simp [*]⟩

/-- Where flow collections only open, one more block collection can be around everything. -/
theorem nest_up : ∀ {l : List TokenEntry} {f b b' : Nat}, (∀ e ∈ l, Stays e.marker) →
    nest (f, b) l = some (0, b') → f = 0 ∧ nest (0, b + 1) l = some (0, b' + 1)
  | [], f, b, b', _, h => by
    simp only [nest, Option.some.injEq, Prod.mk.injEq] at h ⊢
    obtain ⟨rfl, rfl⟩ := h
    simp
  | e :: l, f, b, b', hl, h => by
    simp only [nest] at h ⊢
    cases hst : nestStep (f, b) e.marker with
    | none => rw [hst] at h; cases h
    | some st =>
      obtain ⟨f1, b1⟩ := st
      rw [hst] at h
      obtain ⟨h0, h1⟩ := nest_up (fun e he => hl e (by simp [he])) h
      subst h0
      obtain ⟨h2, h3⟩ := nestStep_up (hl e (by simp)) hst
      exact ⟨by omega, by rw [h3 rfl]; exact h1⟩

/-- Positions are in order, collections are nested, and after the saved key no flow collection and
no document ended. -/
structure Nested (D : List TokenEntry) (s : SS) : Prop where
  before : Before s
  nest : nest (0, 0) (D ++ deliver s.out) = some (s.sc.context.flow, s.sc.context.indents.length)
  key : ∀ k, s.sc.key = some k → ∀ e ∈ s.out, k.stats.read < e.readAt → Stays e.marker

theorem split_deliver (l : List TokenEntry) (r : Nat) :
    deliver l = (deliver l).filter (fun x => decide (x.readAt ≤ r)) ++
      (deliver l).filter (fun x => decide (r < x.readAt)) := by
  have hs := (deliver_stable l).sorted
  generalize deliver l = m at hs
  induction m with
  | nil => rfl
  | cons x m ih =>
    rw [List.pairwise_cons] at hs
    by_cases hx : x.readAt ≤ r
    · have hx' : ¬ r < x.readAt := by omega
      rw [List.filter_cons, List.filter_cons, if_pos (by simpa using hx), if_neg (by simpa using hx'),
        List.cons_append, ← ih hs.2]
    · have hall : ∀ y ∈ x :: m, r < y.readAt := by
        intro y hy
        rcases List.mem_cons.1 hy with rfl | hy
        · omega
        · have := hs.1 y hy
          rw [compare_entry, Ne, Nat.compare_eq_lt] at this
          omega
      rw [List.filter_eq_nil_iff.2, List.nil_append, List.filter_eq_self.2]
      · intro y hy; simpa using hall y hy
      · intro y hy
        have := hall y hy
        simp only [decide_eq_true_eq]; omega

theorem Nested.put' {D : List TokenEntry} {s s' : SS} (h : Nested D s) (hB : Before s') {t : MaybeToken}
    (ho : s'.out = s.out ++ [⟨t, s.sc.stats.read⟩])
    (hn : nestStep (s.sc.context.flow, s.sc.context.indents.length) t.marker =
      some (s'.sc.context.flow, s'.sc.context.indents.length))
    (hk : s'.sc.key = none ∨ (s'.sc.key = s.sc.key ∧ Stays t.marker)) : Nested D s' := by
  refine ⟨hB, ?_, ?_⟩
  · rw [ho, deliver_last (fun x hx => h.before.out x hx), ← List.append_assoc, nest_snoc _ h.nest]
    exact hn
  · intro k hk' e he hlt
    rcases hk with hk | ⟨hk, ht⟩
    · rw [hk] at hk'; cases hk'
    · rw [ho] at he
      rcases List.mem_append.1 he with he | he
      · exact h.key k (hk ▸ hk') e he hlt
      · simp only [List.mem_singleton] at he
        subst he
        exact ht

theorem Nested.same {D : List TokenEntry} {s s' : SS} (h : Nested D s) (hB : Before s')
    (ho : s'.out = s.out) (hf : s'.sc.context.flow = s.sc.context.flow)
    (hi : s'.sc.context.indents.length = s.sc.context.indents.length)
    (hk : ∀ k, s'.sc.key = some k → (∃ k', s.sc.key = some k' ∧ k'.stats = k.stats) ∨
      s.sc.stats.read ≤ k.stats.read) : Nested D s' := by
  refine ⟨hB, by rw [ho, hf, hi]; exact h.nest, ?_⟩
  intro k hk' e he hlt
  rw [ho] at he
  rcases hk k hk' with ⟨k', h1, h2⟩ | h1
  · exact h.key k' h1 e he (by rw [h2]; exact hlt)
  · have := h.before.out e he
    omega

theorem Nested.insert {D : List TokenEntry} {s s' : SS} {k : KeySave} (h : Nested D s) (hB : Before s')
    (hk : s.sc.key = some k) {t : Token} (ho : s'.out = s.out ++ [⟨.Token t, k.stats.read⟩])
    (hk' : s'.sc.key = s.sc.key) (hst : Stays (.ofToken t))
    (hn : (t = .Key ∧ s'.sc.context = s.sc.context) ∨
      (t = .BlockMappingStart ∧ s.sc.context.flow = 0 ∧ s'.sc.context.flow = 0 ∧
        s'.sc.context.indents.length = s.sc.context.indents.length + 1)) : Nested D s' := by
  refine ⟨hB, ?_, ?_⟩
  · have hnest := h.nest
    rw [ho, deliver_snoc]
    unfold ins
    rw [split_deliver s.out k.stats.read, ← List.append_assoc, nest_append] at hnest
    rw [← List.append_assoc, nest_append]
    have hB : ∀ e ∈ (deliver s.out).filter (fun x => decide (k.stats.read < x.readAt)), Stays e.marker := by
      intro e he
      obtain ⟨h1, h2⟩ := List.mem_filter.1 he
      exact h.key k hk e (mem_deliver.1 h1) (by simpa using h2)
    generalize (deliver s.out).filter (fun x => decide (k.stats.read < x.readAt)) = B at hnest hB ⊢
    cases hA : Yary.nest (0, 0) (D ++ (deliver s.out).filter (fun x => decide (x.readAt ≤ k.stats.read))) with
    | none => rw [hA] at hnest; cases hnest
    | some st =>
      obtain ⟨f, b⟩ := st
      rw [hA] at hnest
      simp only [Option.bind_some] at hnest ⊢
      rcases hn with ⟨rfl, hn⟩ | ⟨rfl, h1, h2, h3⟩
      · rw [hn]
        simpa [Yary.nest, nestStep, TokenEntry.marker, MaybeToken.marker, Marker.ofToken, isFlowStart,
          isFlowEnd, isBlockStart, isBlockEnd, isBetween] using hnest
      · rw [h1] at hnest
        obtain ⟨rfl, h4⟩ := nest_up hB hnest
        rw [h2, h3]
        simpa [Yary.nest, nestStep, TokenEntry.marker, MaybeToken.marker, Marker.ofToken, isFlowStart,
          isFlowEnd, isBlockStart, isBlockEnd, isBetween] using h4
  · intro k1 hk1 e he hlt
    rw [ho] at he
    rcases List.mem_append.1 he with he | he
    · exact h.key k1 (hk' ▸ hk1) e he hlt
    · simp only [List.mem_singleton] at he
      subst he
      exact hst

macro "nest_simp" : tactic => `(tactic|
  simp [nestStep, MaybeToken.marker, Marker.ofToken, isFlowStart, isFlowEnd, isBlockStart, isBlockEnd,
    isBetween, Stays, SS.put, SS.setFlow, SS.setIndents, SS.move, *])

theorem closed_nested (D : List TokenEntry) : Closed (Nested D) where
  valid h := h.before.valid
  flags b h := h.same (closed_before.flags b h.before) rfl rfl rfl fun k hk => .inl ⟨k, hk, rfl⟩
  first h h1 := h.put' (closed_before.first h.before h1) rfl (by nest_simp) (.inr ⟨rfl, by nest_simp⟩)
  noKey h := h.same (closed_before.noKey h.before) rfl rfl rfl fun k hk => by cases hk
  stale h h1 := h.same (closed_before.stale h.before h1) rfl rfl rfl fun k hk => by
    simp only [SS.setKey, Option.some.injEq] at hk
    exact .inl ⟨_, h1, by rw [← hk]⟩
  save r h := h.same (closed_before.save r h.before) rfl rfl rfl fun k hk => by
    simp only [SS.setKey, Option.some.injEq] at hk
    exact .inr (by rw [← hk]; exact Nat.le_refl _)
  move h h1 := h.same (closed_before.move h.before h1) rfl rfl rfl fun k hk => .inl ⟨k, hk, rfl⟩
  node h h1 h2 h3 h4 := by
    have hm := h.same (closed_before.move h.before h1) rfl rfl rfl fun k hk => .inl ⟨k, hk, rfl⟩
    refine hm.put' (closed_before.node h.before h1 h2 h3 h4) rfl ?_ (.inr ⟨rfl, ?_⟩) <;>
      rcases h3 with h | h | h | h <;> rw [h] <;>
      simp [nestStep, isFlowStart, isFlowEnd, isBlockStart, isBlockEnd, isBetween, Stays, SS.put, SS.move]
  plain h h1 h2 := by
    refine h.put' (closed_before.plain h.before h1 h2) rfl ?_ (.inl h1)
    rcases h2 with h | h | h | h <;> nest_simp
  boundary h h1 h2 h3 h4 := by
    refine h.put' (closed_before.boundary h.before h1 h2 h3 fun hd => (h4 hd).imp fun _ h => ⟨h.1.before, h.2⟩) rfl ?_ (.inl h1)
    rcases h2 with h | h | ⟨_, _, h⟩ | ⟨_, _, h⟩ <;> nest_simp <;> simpa using h3
  pop i h h1 := h.put' (closed_before.pop i h.before h1) rfl (by nest_simp) (.inr ⟨rfl, by nest_simp⟩)
  roll e i map h h1 := by
    refine h.put' (closed_before.roll e i map h.before h1) rfl ?_ (.inr ⟨rfl, ?_⟩) <;>
      cases map <;> nest_simp
  touch e' h h1 := h.same (closed_before.touch e' h.before h1) rfl rfl (by nest_simp) fun k hk => .inl ⟨k, hk, rfl⟩
  rollKey e i h h1 h2 h3 h4 h5 := h.insert (closed_before.rollKey e i h.before h1 h2 h3 h4 h5) h1 rfl rfl
    (by nest_simp) (.inr ⟨rfl, h5, h5, rfl⟩)
  useKey h h1 h2 h3 h4 := h.insert (closed_before.useKey h.before h1 h2 h3 h4) h1 rfl rfl
    (by nest_simp) (.inl ⟨rfl, rfl⟩)
  flowStart map h := by
    refine h.put' (closed_before.flowStart map h.before) rfl ?_ (.inr ⟨rfl, ?_⟩) <;>
      cases map <;> nest_simp
  flowEnd map h h1 h2 := by
    refine h.put' (closed_before.flowEnd map h.before h1 h2) rfl ?_ (.inl h1)
    cases map <;> nest_simp

theorem static_nested (D : List TokenEntry) : Static (Nested D) := fun n buf h hv =>
  ⟨static_before n buf h.before hv, h.nest, h.key⟩

theorem nested_next (D : List TokenEntry) (sc : Scanner) (buf : Str) (out : List TokenEntry)
    (h : Nested D ⟨sc, buf, out⟩) : Nested (D ++ deliver out) ⟨sc, buf, []⟩ :=
  ⟨h.before.next, by simpa using h.nest, fun k _ e he => by cases he⟩

/-- Collections are nested in all tokens. -/
def AllNested (D : List TokenEntry) (_ : Scanner) : Prop := ∃ st, nest (0, 0) D = some st

theorem nested_last : AtEnd Nested AllNested := by
  intro D s h h1 h2 h3 h4
  rw [deliver_last (fun x hx => h.before.out x hx), ← List.append_assoc]
  refine ⟨(s.sc.context.flow, s.sc.context.indents.length), ?_⟩
  rw [nest_snoc _ h.nest]
  have : TokenEntry.marker ⟨.Token .StreamEnd, s.sc.stats.read⟩ = .StreamEnd := rfl
  rw [this]
  nest_simp
  simpa using h4

theorem nested_start (text : List Char) : Nested [] ⟨{}, utf8 text, []⟩ :=
  ⟨(running_start text).1, rfl, fun k hk => by cases hk⟩

/-- The tokens handed out are nested. -/
theorem handed_nested {opts : SFlags} {text : List Char} {ops : List ROp}
    (h : NoPanic (history opts text ops)) : ∃ st, nest (0, 0) (handed (history opts text ops)) = some st := by
  obtain ⟨D, hD, hp⟩ := text_keeps (opts := opts) closed_nested static_nested nested_next nested_last
    ((validUtf8_iff _).2 ⟨text, rfl⟩) (nested_start text) ops h
  have hst : ∃ st, nest (0, 0) D = some st := by
    obtain ⟨-, ⟨-, h⟩ | ⟨-, h⟩⟩ := hD
    · exact ⟨_, by simpa using h.nest⟩
    · exact h
  obtain ⟨t, ht⟩ := hp
  obtain ⟨st, hst⟩ := hst
  rw [← ht, nest_append] at hst
  change ∃ st, nest (0, 0) (handed (runOps (borrowDrive opts (utf8 text)) ops (PeekReader.new {})).1) = some st
  cases hn : nest (0, 0) (handed (runOps (borrowDrive opts (utf8 text)) ops (PeekReader.new {})).1) with
  | none => rw [hn] at hst; cases hst
  | some st => exact ⟨st, rfl⟩

/-! ### Counting -/

/-- How many tokens are of a kind. -/
theorem nestStep_counts {f b f' b' : Nat} {m : Marker} (h : nestStep (f, b) m = some (f', b')) :
    f + (if isFlowStart m then 1 else 0) = f' + (if isFlowEnd m then 1 else 0) ∧
    b + (if isBlockStart m then 1 else 0) = b' + (if isBlockEnd m then 1 else 0) := by
  unfold nestStep at h
  cases m <;> simp [isFlowStart, isFlowEnd, isBlockStart, isBlockEnd, isBetween] at h ⊢ <;> omega

theorem nest_counts : ∀ {l : List TokenEntry} {f b f' b' : Nat}, nest (f, b) l = some (f', b') →
    f + (l.map TokenEntry.marker).countP isFlowStart = f' + (l.map TokenEntry.marker).countP isFlowEnd ∧
    b + (l.map TokenEntry.marker).countP isBlockStart = b' + (l.map TokenEntry.marker).countP isBlockEnd
  | [], f, b, f', b', h => by
    simp only [nest, Option.some.injEq, Prod.mk.injEq] at h
    simp [h.1, h.2]
  | e :: l, f, b, f', b', h => by
    simp only [nest] at h
    cases hst : nestStep (f, b) e.marker with
    | none => rw [hst] at h; cases h
    | some st =>
      obtain ⟨f1, b1⟩ := st
      rw [hst] at h
      have h1 := nest_counts h
      have h2 := nestStep_counts hst
      simp only [List.map_cons, List.countP_cons]
      omega

end Yary
