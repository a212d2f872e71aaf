import Verif.Proof.Chunk.Lazy

/-! # One step of the scanner at the beginning of a text -/

namespace Yary.Chunk

open Out (Sat)
open Scan

/-- Only scalars to be evaluated later are changed. -/
def Fixes (g : MaybeToken → MaybeToken) : Prop := ∀ t, g (.Token t) = .Token t

/-- The token is changed, not its position. -/
def mapE (g : MaybeToken → MaybeToken) (e : TokenEntry) : TokenEntry := { e with wrap := g e.wrap }

/-- Tokens pushed before, and how those pushed now are changed. -/
structure Pre where
  list : List TokenEntry
  g : MaybeToken → MaybeToken
  fix : Fixes g

/-- No changes. -/
def Pre.same (l : List TokenEntry) : Pre := ⟨l, id, fun _ => rfl⟩

/-- All tokens pushed. -/
def Pre.on (pre : Pre) (out : List TokenEntry) : List TokenEntry := pre.list ++ out.map (mapE pre.g)

/-- The same, with more tokens pushed before. -/
def Pre.add (pre : Pre) (out : List TokenEntry) : Pre := { pre with list := pre.on out }

@[simp] theorem Pre.on_same (l out : List TokenEntry) : (Pre.same l).on out = l ++ out := by
  have : mapE id = id := rfl
  simp [Pre.on, Pre.same, this]

@[simp] theorem Pre.same_list (l : List TokenEntry) : (Pre.same l).list = l := rfl

@[simp] theorem Pre.on_nil (pre : Pre) : pre.on [] = pre.list := by simp [Pre.on]

theorem Pre.on_append (pre : Pre) (a b : List TokenEntry) : pre.on (a ++ b) = pre.on a ++ b.map (mapE pre.g) := by
  simp [Pre.on]

theorem Pre.add_on (pre : Pre) (a b : List TokenEntry) : (pre.add a).on b = pre.on (a ++ b) := by
  rw [Pre.on_append]; rfl

theorem Pre.on_token (pre : Pre) (a : List TokenEntry) (t : Token) (n : Nat) :
    pre.on (a ++ [⟨.Token t, n⟩]) = pre.on a ++ [⟨.Token t, n⟩] := by
  rw [Pre.on_append]; simp [mapE, pre.fix t]

/-- The state with more text after the buffer, another offset, and more tokens before those pushed. -/
def SS.grow (t : Str) (k : Nat) (pre : Pre) (s : SS) : SS :=
  ⟨{ s.sc with offset := k }, s.buf ++ t, pre.on s.out⟩

/-- What a method does from `s`, if it does not ask for more, is what another does from the grown state. -/
def Follows {α β : Type} (V : Str → Prop) (t : Str) (k : Nat) (pre : Pre) (R : α → β → SS → Prop) (s : SS)
    (m : Scan α) (m' : Scan β) : Prop :=
  match m s with
  | (.ok a, s1) => ∃ b, m' (SS.grow t k pre s) = (.ok b, SS.grow t k pre s1) ∧ V s1.buf ∧ R a b s1
  | (.err e, s1) => e = .Extend ∨ m' (SS.grow t k pre s) = (.err e, SS.grow t k pre s1)
  | (.panic, s1) => m' (SS.grow t k pre s) = (.panic, SS.grow t k pre s1)
  | (.diverge, _) => True

variable {α β γ δ : Type} {U V : Str → Prop} {t : Str} {k : Nat} {pre : Pre} {s : SS}
  {R : α → β → SS → Prop} {S : γ → δ → SS → Prop} {m : Scan α} {m' : Scan β}

theorem Follows.bind {f : α → Scan γ} {f' : β → Scan δ} (h : Follows V t k pre R s m m')
    (hf : ∀ a b s1, V s1.buf → R a b s1 → Follows U t k pre S s1 (f a) (f' b)) :
    Follows U t k pre S s (m >>= f) (m' >>= f') := by
  unfold Follows at h
  generalize hm : m s = r at h
  obtain ⟨x, s1⟩ := r
  cases x with
  | ok a =>
    obtain ⟨b, h1, h2, h3⟩ := h
    have := hf a b s1 h2 h3
    unfold Follows at this ⊢
    simp only [Bind.bind, SO.bind, hm, h1]
    exact this
  | err e =>
    unfold Follows
    simp only [Bind.bind, SO.bind, hm]
    rcases h with h | h
    · exact .inl h
    · rw [h]; exact .inr rfl
  | panic =>
    unfold Follows
    simp only [Bind.bind, SO.bind, hm]
    rw [h]
  | diverge =>
    unfold Follows
    simp only [Bind.bind, SO.bind, hm]

theorem Follows.get {f : SS → Scan γ} {f' : SS → Scan δ}
    (h : Follows V t k pre S s (f s) (f' (SS.grow t k pre s))) :
    Follows V t k pre S s (get >>= f) (get >>= f') := h

theorem Follows.pure {a : α} {b : β} (hv : V s.buf) (h : R a b s) :
    Follows V t k pre R s (Pure.pure a : Scan α) (Pure.pure b : Scan β) := ⟨b, rfl, hv, h⟩

theorem Follows.fail {e : ScanError} : Follows V t k pre R s (SO.fail e) (SO.fail e) := .inr rfl

theorem Follows.mono {R' : α → β → SS → Prop} (h : Follows V t k pre R s m m') (hR : ∀ a b s1, R a b s1 → R' a b s1) :
    Follows V t k pre R' s m m' := by
  unfold Follows at h ⊢
  generalize m s = r at h
  obtain ⟨x, s1⟩ := r
  cases x with
  | ok a =>
    obtain ⟨b, h1, h2, h3⟩ := h
    exact ⟨b, h1, h2, hR _ _ _ h3⟩
  | err e => exact h
  | panic => exact h
  | diverge => exact h

theorem Follows.ite {p p' : Prop} [Decidable p] [Decidable p'] (hp : p' ↔ p) {m1 m2 : Scan α} {m1' m2' : Scan β}
    (h1 : p → Follows V t k pre R s m1 m1') (h2 : ¬ p → Follows V t k pre R s m2 m2') :
    Follows V t k pre R s (if p then m1 else m2) (if p' then m1' else m2') := by
  by_cases h : p
  · rw [if_pos h, if_pos (hp.2 h)]; exact h1 h
  · rw [if_neg h, if_neg (fun h' => h (hp.1 h'))]; exact h2 h

/-! ## What does not look at the buffer -/

/-- The method does not look at the buffer, the offset or the tokens pushed, and leaves the buffer alone. -/
def Blind (m : Scan α) : Prop :=
  ∀ s t k pre, m (SS.grow t k pre s) = ((m s).1, SS.grow t k pre (m s).2) ∧ (m s).2.buf = s.buf

theorem Blind.follows (h : Blind m) (hv : V s.buf) :
    Follows V t k pre (fun a b s1 => a = b ∧ s1.buf = s.buf) s m m := by
  obtain ⟨h1, h2⟩ := h s t k pre
  unfold Follows
  rw [h1]
  generalize m s = r at h2
  obtain ⟨x, s1⟩ := r
  cases x with
  | ok a => exact ⟨a, rfl, by rw [h2]; exact hv, rfl, h2⟩
  | err e => exact .inr rfl
  | panic => rfl
  | diverge => trivial

theorem Blind.bind {f : α → Scan γ} (h : Blind m) (hf : ∀ a, Blind (f a)) : Blind (m >>= f) := by
  intro s t k pre
  obtain ⟨h1, h2⟩ := h s t k pre
  simp only [Bind.bind, SO.bind]
  rw [h1]
  generalize m s = r at h2
  obtain ⟨x, s1⟩ := r
  cases x with
  | ok a =>
    obtain ⟨h3, h4⟩ := hf a s1 t k pre
    simp only at h2 ⊢
    exact ⟨h3, by rw [h4, h2]⟩
  | err e => exact ⟨rfl, h2⟩
  | panic => exact ⟨rfl, h2⟩
  | diverge => exact ⟨rfl, h2⟩

theorem Blind.get {f : SS → Scan γ} (h : ∀ s t k pre, f (SS.grow t k pre s) = f s) (hf : ∀ s, Blind (f s)) :
    Blind (get >>= f) := by
  intro s t k pre
  have h1 := hf s s t k pre
  rw [show (Scan.get >>= f) (SS.grow t k pre s) = f (SS.grow t k pre s) (SS.grow t k pre s) from rfl, h]
  exact h1

theorem Blind.pure {a : α} : Blind (Pure.pure a : Scan α) := fun _ _ _ _ => ⟨rfl, rfl⟩
theorem Blind.fail {e : ScanError} : Blind (SO.fail e : Scan α) := fun _ _ _ _ => ⟨rfl, rfl⟩
theorem Blind.lift {x : Out ScanError α} : Blind (SO.lift x : Scan α) := fun _ _ _ _ => ⟨rfl, rfl⟩
theorem Blind.ite {p : Prop} [Decidable p] {m1 m2 : Scan α} (h1 : Blind m1) (h2 : Blind m2) :
    Blind (if p then m1 else m2) := by split <;> assumption

/-- A change of the scanner that has nothing to do with the offset. -/
theorem Blind.upd {f : Scanner → Scanner} (h : ∀ sc k, f { sc with offset := k } = { f sc with offset := k }) :
    Blind (Scan.upd f) := by
  intro s t k pre
  refine ⟨?_, rfl⟩
  exact congrArg (fun sc => (Out.ok (), (⟨sc, s.buf ++ t, pre.on s.out⟩ : SS))) (h s.sc k)

theorem blind_enqueue {a : Token} {n : Nat} : Blind (enqueue (.Token a) n) := by
  intro s t k pre
  refine ⟨?_, rfl⟩
  simp only [enqueue, SO.modify, SS.grow, Pre.on_token]

theorem enqueue_follows {a a' : MaybeToken} {n : Nat} (ha : a' = pre.g a) (hv : V s.buf) :
    Follows V t k pre (fun _ _ s1 => s1.buf = s.buf) s (enqueue a n) (enqueue a' n) := by
  refine ⟨(), ?_, hv, rfl⟩
  subst ha
  simp only [enqueue, SO.modify, SS.grow, Pre.on_append]
  rfl

theorem blind_push {a : Token} : Blind (push a) := .get (fun _ _ _ _ => rfl) fun _ => blind_enqueue

theorem blind_takeKey : Blind takeKey :=
  .get (fun _ _ _ _ => rfl) fun _ => .bind (.upd fun _ _ => rfl) fun _ => .pure

theorem blind_removeSavedKey : Blind removeSavedKey := by
  refine .bind blind_takeKey fun k => ?_
  cases k with
  | none => exact .pure
  | some k => exact .ite .fail .pure

theorem blind_saveKey : Blind saveKey :=
  .get (fun _ _ _ _ => rfl) fun _ => .ite (.bind blind_removeSavedKey fun _ => .upd fun _ _ => rfl) .pure

theorem blind_unrollIndent {c : Option Nat} : Blind (unrollIndent c) := by
  intro s t k pre
  refine ⟨?_, rfl⟩
  simp only [unrollIndent, SO.modify, SS.grow, Pre.on_append, List.map_replicate, mapE, pre.fix .BlockEnd]

theorem blind_rollIndent {a b c : Nat} {map : Bool} : Blind (rollIndent a b c map) :=
  .get (fun _ _ _ _ => rfl) fun _ => .ite (.ite (.bind (.upd fun _ _ => rfl) fun _ => blind_enqueue)
    (.ite (.bind (.upd fun _ _ => rfl) fun _ => blind_enqueue) .pure)) .pure

theorem blind_rollHere {map : Bool} : Blind (rollHere map) := .get (fun _ _ _ _ => rfl) fun _ => blind_rollIndent

theorem blind_explicitKeyCheck : Blind explicitKeyCheck :=
  .get (fun _ _ _ _ => rfl) fun _ => .ite (.ite .fail blind_rollHere) .pure

theorem blind_valueSaved {key : KeySave} : Blind (valueSaved key) :=
  .bind blind_rollIndent fun _ => .bind blind_enqueue fun _ => .upd fun _ _ => rfl

theorem blind_valueCheck : Blind valueCheck :=
  .get (fun _ _ _ _ => rfl) fun _ => .ite (.ite .fail blind_rollHere) .pure

theorem blind_valueBare : Blind valueBare :=
  .get (fun _ _ _ _ => rfl) fun _ => .bind blind_valueCheck fun _ => .upd fun _ _ => rfl

theorem blind_valueKey {key : Option KeySave} : Blind (valueKey key) := by
  cases key with
  | none => exact blind_valueBare
  | some key => exact .ite blind_valueSaved blind_valueBare

theorem blind_blockEntryCheck : Blind blockEntryCheck :=
  .get (fun _ _ _ _ => rfl) fun _ => .ite blind_rollHere .fail

theorem blind_expireKey : Blind expireKey := by
  refine .get (fun _ _ _ _ => rfl) fun s => ?_
  cases s.sc.key with
  | none => exact .pure
  | some key => exact .ite (.ite .fail (.upd fun _ _ => rfl)) .pure

theorem blind_fetchStreamStart : Blind fetchStreamStart := .bind (.upd fun _ _ => rfl) fun _ => blind_push

/-! ## What the sub-scanners do -/

/-- Both have read the same. -/
def ReadV {α : Type} (g : α → α) (V : Str → Prop) (t : Str) (a b : α × Cur) : Prop :=
  b = (g a.1, ⟨a.2.buf ++ t, a.2.stats⟩) ∧ V a.2.buf

/-- What the sub-scanners with the flags `o` do on the beginning of a text, if they do not ask for more, is what those
with the flags `o'` do on the text; `W` if nothing follows. -/
structure Subs (g : MaybeToken → MaybeToken) (U V : Str → Prop) (W : Prop) (o o' : SFlags) (t : Str) : Prop where
  nil : W → t = []
  head : HeadOk t
  weak : ∀ {s}, V s → U s
  drop : ∀ {s n}, U s → isBoundary s n = true → U (s.drop n)
  ws : ∀ {c : Cur}, V c.buf → Later No (fun a b => b = ⟨a.buf ++ t, a.stats⟩ ∧ V a.buf ∧ (a.buf ≠ [] ∨ W))
    (eatWs o true c) (eatWs o' true ⟨c.buf ++ t, c.stats⟩)
  cached : ∀ {s}, V s → Later No
    (fun _ _ => (4 ≤ s.length ∨ W) ∧ ∀ x n, dispatch x n (s ++ t) = dispatch x n s) (cache o 4 s) (cache o' 4 (s ++ t))
  directive : ∀ {c : Cur}, V c.buf → (c.buf ≠ [] ∨ W) →
    Later No (ReadV id U t) (directiveToken o c) (directiveToken o' ⟨c.buf ++ t, c.stats⟩)
  tag : ∀ {c : Cur}, V c.buf → Later No (ReadV id U t) (scanNodeTag o c) (scanNodeTag o' ⟨c.buf ++ t, c.stats⟩)
  anchor : ∀ {c : Cur} {a : Bool}, V c.buf → (c.buf ≠ [] ∨ W) →
    Later No (ReadV id U t) (scanAnchor o a c) (scanAnchor o' a ⟨c.buf ++ t, c.stats⟩)
  flow : ∀ {c : Cur} {a : Bool}, V c.buf →
    Later No (ReadV g U t) (scanFlow o a c) (scanFlow o' a ⟨c.buf ++ t, c.stats⟩)
  plain : ∀ {c : Cur} {i : Nat} {a : Bool}, V c.buf →
    Later No (ReadV g U t) (scanPlain o i a c) (scanPlain o' i a ⟨c.buf ++ t, c.stats⟩)
  block : ∀ {c : Cur} {i : Nat} {a : Bool}, V c.buf → (startsWith c.buf b! '|' = true ∨ startsWith c.buf b! '>' = true) →
    Later No (ReadV g U t) (scanBlock o i a c) (scanBlock o' i a ⟨c.buf ++ t, c.stats⟩)

theorem Read.readV {α : Type} {a b : α × Cur} (h : Read t a b) : ReadV id (fun s => validUtf8 s = true) t a b := h

theorem dispatch_grow {s : Str} (hv : validUtf8 s = true) (h : Has 4 s) (x : Context) (n : Nat) :
    dispatch x n (s ++ t) = dispatch x n s := by
  have hn := h.ne
  have h2 : Has 2 s := Has.mono (by decide) h
  have hs := fun b => startsWith_grow (t := t) hn b
  have hw : ∀ b : Byte, b < 128 → (startsWith s b && isWhiteSpaceZ ((s ++ t).drop 1)) =
      (startsWith s b && isWhiteSpaceZ (s.drop 1)) := by
    intro b hb
    have := second_grow (t := t) hb (fun _ => isWhiteSpaceZ_grow) hv h2
    rwa [hs] at this
  have hm : (startsMarker (s ++ t) && (n == 0 && isWhiteSpaceZ ((s ++ t).drop 3))) =
      (startsMarker s && (n == 0 && isWhiteSpaceZ (s.drop 3))) := by
    have h3 := marker_grow (t := t) hv h
    cases n == 0
    · simp
    · simpa using h3
  have h63 := hw (b! '?') (by decide)
  have h58 := hw (b! ':') (by decide)
  have hp : isPlainScalar x.isBlock (s ++ t) = isPlainScalar x.isBlock s := by
    unfold isPlainScalar
    rw [isWhiteSpaceZ_grow hv hn]
    split
    · rfl
    · match s, h2.length with
      | a :: b :: s, _ =>
        simp only [List.cons_append]
        rfl
  unfold dispatch
  simp only [hs, hm, hp]
  rw [hw (b! '-') (by decide)]
  have hq : (startsWith s (b! '?') && (x.isFlow || isWhiteSpaceZ ((s ++ t).drop 1))) =
      (startsWith s (b! '?') && (x.isFlow || isWhiteSpaceZ (s.drop 1))) := by
    cases x.isFlow
    · simpa using h63
    · simp
  have hc : (startsWith s (b! ':') && (isWhiteSpaceZ ((s ++ t).drop 1) || x.isFlow)) =
      (startsWith s (b! ':') && (isWhiteSpaceZ (s.drop 1) || x.isFlow)) := by
    cases x.isFlow
    · simpa using h58
    · simp
  rw [hq, hc]

/-- While there may be more text. -/
theorem subs_ext {o o' : SFlags} (hx : o.extendable = true) (hx' : o'.extendable = false) (hl : o.lazy = false)
    (hl' : o'.lazy = false) (ht : HeadOk t) : Subs id (fun s => validUtf8 s = true) (fun s => validUtf8 s = true) False o o' t where
  nil := False.elim
  head := ht
  weak := id
  drop := validUtf8_drop
  ws := by
    intro c hv
    refine (eatWs_later hx hx' ht hv).mono (fun _ h => h) ?_
    rintro a b ⟨⟨h1, h2⟩, h3, -⟩
    exact ⟨h1, h2, .inl h3⟩
  cached := by
    intro s hv
    rw [cache_whole o' hx']
    rcases cache_has hx (n := 4) (s := s) with ⟨h1, h2⟩ | h1
    · rw [h1]; exact .ok ⟨.inl h2.length, dispatch_grow hv h2⟩
    · rw [h1]; exact .extend
  directive := by
    intro c hv hn
    exact directiveToken_later hx hx' ht hv (hn.resolve_right id)
  tag := fun hv => scanNodeTag_later hx hx' ht hv
  anchor := by
    intro c a hv hn
    exact scanAnchor_later hx hx' ht hv (hn.resolve_right id)
  flow := by
    intro c a hv
    unfold scanFlow
    rw [hl, hl']
    refine (scanFlowEager_later hx hx' ht hv).bind0 ?_
    rintro ⟨x, c1⟩ _ ⟨rfl, h⟩
    exact .ok ⟨rfl, h⟩
  plain := by
    intro c i a hv
    unfold scanPlain
    rw [hl, hl']
    refine (scanPlainEager_later hx hx' ht hv).bind0 ?_
    rintro ⟨x, c1⟩ _ ⟨rfl, h⟩
    exact .ok ⟨rfl, h⟩
  block := by
    intro c i a hv _
    unfold scanBlock
    rw [hl, hl']
    refine (scanBlockEager_later hx hx' ht hv).bind0 ?_
    rintro ⟨x, c1⟩ _ ⟨rfl, h⟩
    exact .ok ⟨rfl, h⟩

/-- The scalar, of a text that does not go on. -/
def settle : MaybeToken → MaybeToken
  | .Token t => .Token t
  | .Deferred l => .Deferred (settleLazy l)

theorem settle_fixes : Fixes settle := fun _ => rfl

/-- Valid text, and all its bytes are bytes of `T`. -/
def Within (T s : Str) : Prop := validUtf8 s = true ∧ ∀ b ∈ s, b ∈ T

/-- The deferred scalars of a scanner are of its flags. -/
theorem scanFlowLazy_ok {o : SFlags} {single : Bool} {c : Cur} {r : Lazy × Cur} (h : scanFlowLazy o single c = .ok r) :
    ∃ o1 s st f, r.1 = .flow o1 s st f := by
  unfold scanFlowLazy at h
  obtain ⟨_, -, h⟩ := Out.bind_eq_ok.1 h
  obtain ⟨_, -, h⟩ := Out.bind_eq_ok.1 h
  obtain ⟨_, -, h⟩ := Out.bind_eq_ok.1 h
  obtain ⟨_, -, h⟩ := Out.bind_eq_ok.1 h
  cases h
  exact ⟨_, _, _, _, rfl⟩

theorem scanPlainLazy_ok {o : SFlags} {i : Nat} {b : Bool} {c : Cur} {r : Lazy × Cur} (h : scanPlainLazy o i b c = .ok r) :
    ∃ o1 s st j f, r.1 = .plain o1 s st j f := by
  rw [scanPlainLazy_eq] at h
  obtain ⟨_, -, h⟩ := Out.bind_eq_ok.1 h
  obtain ⟨_, -, h⟩ := Out.bind_eq_ok.1 h
  obtain ⟨_, -, h⟩ := Out.bind_eq_ok.1 h
  cases h
  exact ⟨_, _, _, _, _, rfl⟩

theorem scanBlockLazy_ok {o : SFlags} {i : Nat} {b : Bool} {c : Cur} {r : Lazy × Cur} (h : scanBlockLazy o i b c = .ok r) :
    ∃ s st j f, r.1 = .block o s st j f := by
  unfold scanBlockLazy at h
  obtain ⟨_, -, h⟩ := Out.bind_eq_ok.1 h
  obtain ⟨_, -, h⟩ := Out.bind_eq_ok.1 h
  obtain ⟨_, -, h⟩ := Out.bind_eq_ok.1 h
  obtain ⟨_, -, h⟩ := Out.bind_eq_ok.1 h
  cases h
  exact ⟨_, _, _, _, rfl⟩

section
variable {g : MaybeToken → MaybeToken} {o : SFlags}
  (hg : ∀ l, (∀ o1 s st i f, l = .block o1 s st i f → o1 = o) → g (.Deferred l) = .Deferred l) (hf : Fixes g)
include hg hf

theorem scanFlow_same {b : Bool} {c : Cur} {r : MaybeToken × Cur} (h : scanFlow o b c = .ok r) : g r.1 = r.1 := by
  unfold scanFlow at h
  split at h
  · obtain ⟨⟨l, c1⟩, h1, h⟩ := Out.bind_eq_ok.1 h
    cases h
    obtain ⟨_, _, _, _, rfl⟩ := scanFlowLazy_ok h1
    exact hg _ fun _ _ _ _ _ h => by cases h
  · obtain ⟨⟨l, c1⟩, h1, h⟩ := Out.bind_eq_ok.1 h
    cases h
    exact hf _

theorem scanPlain_same {i : Nat} {b : Bool} {c : Cur} {r : MaybeToken × Cur} (h : scanPlain o i b c = .ok r) : g r.1 = r.1 := by
  unfold scanPlain at h
  split at h
  · obtain ⟨⟨l, c1⟩, h1, h⟩ := Out.bind_eq_ok.1 h
    cases h
    obtain ⟨_, _, _, _, _, rfl⟩ := scanPlainLazy_ok h1
    exact hg _ fun _ _ _ _ _ h => by cases h
  · obtain ⟨⟨l, c1⟩, h1, h⟩ := Out.bind_eq_ok.1 h
    cases h
    exact hf _

theorem scanBlock_same {i : Nat} {b : Bool} {c : Cur} {r : MaybeToken × Cur} (h : scanBlock o i b c = .ok r) : g r.1 = r.1 := by
  unfold scanBlock at h
  split at h
  · obtain ⟨⟨l, c1⟩, h1, h⟩ := Out.bind_eq_ok.1 h
    cases h
    obtain ⟨_, _, _, _, rfl⟩ := scanBlockLazy_ok h1
    exact hg _ fun _ _ _ _ _ h => by cases h; rfl
  · obtain ⟨⟨l, c1⟩, h1, h⟩ := Out.bind_eq_ok.1 h
    cases h
    exact hf _

end

/-- While there may be more text, and scalars are to be evaluated later. -/
theorem subs_lazy {g : MaybeToken → MaybeToken} {o o' : SFlags} {T : Str} (hx : o.extendable = true) (hx' : o'.extendable = false) (hl : o.lazy = true)
    (hl' : o'.lazy = true) (ht : HeadOk t) (hT : g = settle ∧ 0x0D ∉ T ∨ g = id ∧ b! '|' ∉ T ∧ b! '>' ∉ T) :
    Subs g (fun s => validUtf8 s = true) (Within T) False o o' t where
  nil := False.elim
  head := ht
  weak := And.left
  drop := validUtf8_drop
  ws := by
    intro c hv
    have hs := eatWs_sat (opts := o) (comments := true) (c := c) (P := True) (.inl trivial)
    refine ((eatWs_later hx hx' ht hv.1).and' hs).mono (fun _ h => h) ?_
    rintro a b ⟨⟨⟨h1, h2⟩, h3, -⟩, h4⟩
    obtain ⟨p, hp⟩ := h4.suffix
    exact ⟨h1, ⟨h2, fun b hb => hv.2 b (by rw [hp]; exact List.mem_append_right _ hb)⟩, .inl h3⟩
  cached := by
    intro s hv
    rw [cache_whole o' hx']
    rcases cache_has hx (n := 4) (s := s) with ⟨h1, h2⟩ | h1
    · rw [h1]; exact .ok ⟨.inl h2.length, dispatch_grow hv.1 h2⟩
    · rw [h1]; exact .extend
  directive := by
    intro c hv hn
    exact directiveToken_later hx hx' ht hv.1 (hn.resolve_right id)
  tag := fun hv => scanNodeTag_later hx hx' ht hv.1
  anchor := by
    intro c a hv hn
    exact scanAnchor_later hx hx' ht hv.1 (hn.resolve_right id)
  flow := by
    intro c a hv
    unfold scanFlow
    rw [hl, hl']
    refine ((scanFlowLazy_later hx hx' ht (hl'.trans hl.symm) hv.1).and_ok fun _ h => scanFlowLazy_ok h).bind0 ?_
    rintro ⟨x, c1⟩ _ ⟨⟨rfl, h⟩, _, _, _, _, h1⟩
    simp only at h1
    subst h1
    rcases hT with ⟨rfl, -⟩ | ⟨rfl, -⟩ <;> exact .ok ⟨rfl, h⟩
  plain := by
    intro c i a hv
    unfold scanPlain
    rw [hl, hl']
    refine ((scanPlainLazy_later hx hx' ht (hl'.trans hl.symm) hv.1).and_ok fun _ h => scanPlainLazy_ok h).bind0 ?_
    rintro ⟨x, c1⟩ _ ⟨⟨rfl, h⟩, _, _, _, _, _, h1⟩
    simp only at h1
    subst h1
    rcases hT with ⟨rfl, -⟩ | ⟨rfl, -⟩ <;> exact .ok ⟨rfl, h⟩
  block := by
    intro c i a hv hs
    rcases hT with ⟨rfl, hT⟩ | ⟨-, hd⟩
    · unfold scanBlock
      rw [hl, hl']
      refine (scanBlockLazy_later hx hx' ht (hl'.trans hl.symm) hv.1 (fun h => hT (hv.2 _ h)) hs).bind0 ?_
      rintro ⟨x, c1⟩ _ ⟨rfl, h⟩
      exact .ok ⟨rfl, h⟩
    · exfalso
      cases hb : c.buf with
      | nil => rw [hb] at hs; simp [startsWith] at hs
      | cons b s =>
        have hb' := hv.2 b (by rw [hb]; exact .head _)
        simp only [hb, startsWith, List.head?_cons, beq_iff_eq, Option.some.injEq] at hs
        rcases hs with hs | hs
        · exact hd.1 (hs ▸ hb')
        · exact hd.2 (hs ▸ hb')

/-- When nothing follows. -/
theorem subs_whole {g : MaybeToken → MaybeToken} (o : SFlags) (hg : ∀ l, (∀ o1 s st i f, l = .block o1 s st i f → o1 = o) →
    g (.Deferred l) = .Deferred l) (hf : Fixes g) : Subs g (fun _ => True) (fun _ => True) True o o [] where
  nil _ := rfl
  head := fun _ _ h => by cases h
  weak := id
  drop _ _ := trivial
  ws := by
    intro c _
    rw [List.append_nil]
    refine Later.same.mono (fun _ h => h) ?_
    rintro a _ rfl
    exact ⟨by simp, trivial, .inr trivial⟩
  cached := by
    intro s _
    rw [List.append_nil]
    exact Later.same.mono (fun _ h => h) fun _ _ _ => ⟨.inr trivial, fun _ _ => rfl⟩
  directive := by
    intro c _ _
    rw [List.append_nil]
    refine Later.same.mono (fun _ h => h) ?_
    rintro a _ rfl
    exact ⟨by simp, trivial⟩
  tag := by
    intro c _
    rw [List.append_nil]
    refine Later.same.mono (fun _ h => h) ?_
    rintro a _ rfl
    exact ⟨by simp, trivial⟩
  anchor := by
    intro c _ _ _
    rw [List.append_nil]
    refine Later.same.mono (fun _ h => h) ?_
    rintro a _ rfl
    exact ⟨by simp, trivial⟩
  flow := by
    intro c a _
    rw [List.append_nil]
    refine (Later.same.and_ok fun _ h => scanFlow_same hg hf h).mono (fun _ h => h) ?_
    rintro a _ ⟨rfl, h⟩
    exact ⟨by simp [h], trivial⟩
  plain := by
    intro c _ _ _
    rw [List.append_nil]
    refine (Later.same.and_ok fun _ h => scanPlain_same hg hf h).mono (fun _ h => h) ?_
    rintro a _ ⟨rfl, h⟩
    exact ⟨by simp [h], trivial⟩
  block := by
    intro c _ _ _ _
    rw [List.append_nil]
    refine (Later.same.and_ok fun _ h => scanBlock_same hg hf h).mono (fun _ h => h) ?_
    rintro a _ ⟨rfl, h⟩
    exact ⟨by simp [h], trivial⟩

/-! ## The methods -/

theorem Later.follows {x : Out ScanError α} {y : Out ScanError β} {Q : α → β → Prop} (hv : V s.buf) (h : Later No Q x y) :
    Follows V t k pre (fun a b s1 => Q a b ∧ s1 = s) s (SO.lift x : Scan α) (SO.lift y : Scan β) := by
  unfold Follows SO.lift
  cases x with
  | ok a =>
    rcases h with h | ⟨b, rfl, h⟩
    · exact h.elim
    · exact ⟨b, rfl, hv, h, rfl⟩
  | err e =>
    rcases h with h | rfl
    · exact .inl h
    · exact .inr rfl
  | panic => cases h; rfl
  | diverge => trivial

theorem sub_follows {stats : MStats} {f : Cur → Out ScanError α} {f' : Cur → Out ScanError β} {Q : α → β → Prop}
    (hv : V s.buf) (h : Later No Q (f ⟨s.buf, stats⟩) (f' ⟨s.buf ++ t, stats⟩)) :
    Follows V t k pre (fun a b s1 => Q a b ∧ s1 = s) s (sub stats f) (sub stats f') :=
  Follows.get (Later.follows hv h)

variable {W : Prop} {o o' : SFlags}

theorem commit_follows {V' : Str → Prop} (hS : Subs pre.g U V W o o' t) {buf : Str} {stats : MStats} (hv : V' buf) :
    Follows V' t k pre (fun _ _ s1 => s1.buf = buf) s (commit buf stats) (commit (buf ++ t) stats) := by
  unfold Follows commit
  have hb : isBoundary (s.buf ++ t) ((s.buf ++ t).length - (buf ++ t).length) =
      isBoundary s.buf (s.buf.length - buf.length) := by
    rw [show (s.buf ++ t).length - (buf ++ t).length = s.buf.length - buf.length by
      simp only [List.length_append]; omega]
    exact boundary_grow hS.head (by omega)
  have hg : (SS.grow t k pre s).buf = s.buf ++ t := rfl
  rw [hg, hb]
  by_cases h : isBoundary s.buf (s.buf.length - buf.length) = true
  · rw [if_pos h, if_pos h]
    exact ⟨(), rfl, hv, rfl⟩
  · rw [if_neg h, if_neg h]

theorem advance_follows (hS : Subs pre.g U V W o o' t) {n : Nat} (hv : U s.buf) (hn : n ≤ s.buf.length ∨ W) :
    Follows U t k pre (fun _ _ _ => True) s (advance n) (advance n) := by
  unfold Follows advance
  have hg : (SS.grow t k pre s).buf = s.buf ++ t := rfl
  have hg' : (SS.grow t k pre s).sc.stats = s.sc.stats := rfl
  rw [hg, hg']
  unfold Cur.adv
  have hb : isBoundary (s.buf ++ t) n = isBoundary s.buf n := by
    rcases hn with hn | hw
    · exact boundary_grow hS.head hn
    · rw [hS.nil hw, List.append_nil]
  simp only [hb]
  by_cases h : isBoundary s.buf n = true
  · simp only [if_pos h]
    refine ⟨(), ?_, hS.drop hv h, trivial⟩
    have hd : (s.buf ++ t).drop n = s.buf.drop n ++ t := drop_grow (boundary_le h)
    simp only [SS.grow, hd]
  · simp only [if_neg h]

theorem finish_follows (hS : Subs pre.g U V W o o' t) {a a' : MaybeToken} {c : Cur} (ha : a' = pre.g a) (hv : U s.buf) (hc : U c.buf) :
    Follows U t k pre (fun _ _ _ => True) s (finish a c) (finish a' ⟨c.buf ++ t, c.stats⟩) := by
  unfold finish
  refine (blind_saveKey.follows hv).bind ?_
  rintro _ _ s1 h1 -
  refine ((Blind.upd fun _ _ => rfl).follows h1).bind ?_
  rintro _ _ s2 h2 -
  refine .get ((commit_follows hS hc).bind ?_)
  rintro _ _ s3 h3 -
  exact .get ((enqueue_follows ha h3).mono fun _ _ _ _ => trivial)

theorem eatWhitespace_follows (hS : Subs pre.g U V W o o' t) (hv : V s.buf) :
    Follows V t k pre (fun _ _ s1 => s1.buf ≠ [] ∨ W) s (eatWhitespace o) (eatWhitespace o') := by
  unfold eatWhitespace
  refine (sub_follows hv (hS.ws hv)).bind ?_
  rintro c _ _ - ⟨⟨rfl, h1, h2⟩, rfl⟩
  refine ((Blind.upd fun _ _ => rfl).follows hv).bind ?_
  rintro _ _ s2 h3 -
  refine .get ((commit_follows hS h1).mono ?_)
  intro _ _ s1 hs
  rw [hs]
  exact h2

/-- The innermost sequence is at the indentation of its mapping, and ends here. -/
def ZeroDue (e : IndentEntry) (s : SS) : Prop :=
  e.line < s.sc.stats.lines ∧ e.zeroIndented = true ∧ e.kind = .BlockSequenceStart ∧ startsWith s.buf b! '-' = false

theorem popZeroIndent_nil {s : SS} (h : s.sc.context.indents = []) : popZeroIndent s = (.ok (), s) := by
  simp only [popZeroIndent, SO.modify, h]

theorem popZeroIndent_pos {s : SS} {e : IndentEntry} {es : List IndentEntry} (hi : s.sc.context.indents = e :: es)
    (h : ZeroDue e s) : popZeroIndent s = (.ok (), { s with
      sc := { s.sc with context := { s.sc.context with indents := es, indent := e.indent } }
      out := s.out ++ [⟨.Token .BlockEnd, s.sc.stats.read⟩] }) := by
  simp only [popZeroIndent, SO.modify, hi]
  rw [if_pos (by simp [h.1, h.2.1, h.2.2.1, h.2.2.2])]

theorem popZeroIndent_neg {s : SS} {e : IndentEntry} {es : List IndentEntry} (hi : s.sc.context.indents = e :: es)
    (h : ¬ ZeroDue e s) : popZeroIndent s = (.ok (), s) := by
  simp only [popZeroIndent, SO.modify, hi]
  rw [if_neg]
  intro h'
  simp only [Bool.and_eq_true, decide_eq_true_eq, beq_iff_eq, Bool.not_eq_true'] at h'
  exact h ⟨h'.1.1.1, h'.1.1.2, h'.1.2, h'.2⟩

theorem popZeroIndent_follows (hS : Subs pre.g U V W o o' t) (hv : V s.buf) (hn : s.buf ≠ [] ∨ W) :
    Follows V t k pre (fun _ _ s1 => s1.buf = s.buf) s popZeroIndent popZeroIndent := by
  have hb : startsWith (s.buf ++ t) b! '-' = startsWith s.buf b! '-' := by
    rcases hn with h | h
    · exact startsWith_grow h _
    · rw [hS.nil h, List.append_nil]
  unfold Follows
  cases hi : s.sc.context.indents with
  | nil =>
    rw [popZeroIndent_nil hi, popZeroIndent_nil (by exact hi)]
    exact ⟨(), rfl, hv, rfl⟩
  | cons e es =>
    by_cases h : ZeroDue e s
    · rw [popZeroIndent_pos hi h, popZeroIndent_pos (s := SS.grow t k pre s) hi
        ⟨h.1, h.2.1, h.2.2.1, by rw [← h.2.2.2]; exact hb⟩]
      refine ⟨(), ?_, hv, rfl⟩
      simp only [SS.grow, Pre.on_token]
    · rw [popZeroIndent_neg hi h, popZeroIndent_neg (s := SS.grow t k pre s) hi
        fun h' => h ⟨h'.1, h'.2.1, h'.2.2.1, by rw [← h'.2.2.2]; exact hb.symm⟩]
      exact ⟨(), rfl, hv, rfl⟩

theorem prepare_follows (hS : Subs pre.g U V W o o' t) (hv : V s.buf) :
    Follows V t k pre (fun _ _ s1 => s1.buf ≠ [] ∨ W) s (prepare o) (prepare o') := by
  unfold prepare
  refine (eatWhitespace_follows hS hv).bind ?_
  rintro _ _ s1 h1 hn
  refine (blind_expireKey.follows h1).bind ?_
  rintro _ _ s2 h2 ⟨-, hb2⟩
  refine .get ((blind_unrollIndent.follows h2).bind ?_)
  rintro _ _ s3 h3 ⟨-, hb3⟩
  rw [← hb2, ← hb3] at hn
  refine (popZeroIndent_follows hS h3 hn).mono ?_
  intro _ _ s4 h4
  rw [h4]
  exact hn

/-- The end of most methods. -/
theorem advancePush_follows (hS : Subs pre.g U V W o o' t) {n : Nat} {a : Token} (hv : U s.buf) (hn : n ≤ s.buf.length ∨ W) :
    Follows U t k pre (fun _ _ _ => True) s (advance n >>= fun _ => push a) (advance n >>= fun _ => push a) := by
  refine (advance_follows hS hv hn).bind ?_
  rintro _ _ s1 h1 -
  exact (blind_push.follows h1).mono fun _ _ _ _ => trivial

theorem run_follows (hS : Subs pre.g U V W o o' t) (hv : V s.buf) (hn : 4 ≤ s.buf.length ∨ W) (f : Fetch)
    (hfb : ∀ fold, f = .block fold → startsWith s.buf b! '|' = true ∨ startsWith s.buf b! '>' = true) :
    Follows U t k pre (fun _ _ _ => True) s (run o f) (run o' f) := by
  have hu : U s.buf := hS.weak hv
  have hne : s.buf ≠ [] ∨ W := hn.imp_left fun h h0 => by rw [h0] at h; simp at h
  have hle : ∀ {s1 : SS} {n : Nat}, n ≤ 4 → s1.buf = s.buf → (n ≤ s1.buf.length ∨ W) := by
    intro s1 n h4 h
    rw [h]
    exact hn.imp_left fun h => by omega
  cases f with
  | directive =>
    unfold run fetchDirective
    refine (sub_follows hu (hS.directive hv hne)).bind ?_
    rintro ⟨a, c⟩ _ _ - ⟨⟨rfl, h1⟩, rfl⟩
    refine (blind_unrollIndent.follows hu).bind ?_
    rintro _ _ s1 h2 -
    refine (blind_removeSavedKey.follows h2).bind ?_
    rintro _ _ s2 h3 -
    refine ((Blind.upd fun _ _ => rfl).follows h3).bind ?_
    rintro _ _ s3 h4 -
    refine .get ((commit_follows hS h1).bind ?_)
    rintro _ _ s4 h5 -
    exact (blind_push.follows h5).mono fun _ _ _ _ => trivial
  | marker start =>
    unfold run fetchDocumentMarker
    refine (blind_unrollIndent.follows hu).bind ?_
    rintro _ _ s1 h1 ⟨-, e1⟩
    refine (blind_removeSavedKey.follows h1).bind ?_
    rintro _ _ s2 h2 ⟨-, e2⟩
    refine ((Blind.upd fun _ _ => rfl).follows h2).bind ?_
    rintro _ _ s3 h3 ⟨-, e3⟩
    exact advancePush_follows hS h3 (hle (by decide) (by rw [e3, e2, e1]))
  | flowStart map =>
    unfold run fetchFlowStart
    refine ((Blind.upd fun _ _ => rfl).follows hu).bind ?_
    rintro _ _ s1 h1 ⟨-, e1⟩
    refine (advance_follows hS h1 (hle (by decide) e1)).bind ?_
    rintro _ _ s2 h2 -
    refine (blind_push.follows h2).bind ?_
    rintro _ _ s3 h3 -
    refine (blind_saveKey.follows h3).bind ?_
    rintro _ _ s4 h4 -
    exact ((Blind.upd fun _ _ => rfl).follows h4).mono fun _ _ _ _ => trivial
  | flowEnd map =>
    unfold run fetchFlowEnd
    refine (blind_removeSavedKey.follows hu).bind ?_
    rintro _ _ s1 h1 ⟨-, e1⟩
    refine .get ((Blind.lift.follows h1).bind ?_)
    rintro x _ s2 h2 ⟨rfl, e2⟩
    refine ((Blind.upd fun _ _ => rfl).follows h2).bind ?_
    rintro _ _ s3 h3 ⟨-, e3⟩
    exact advancePush_follows hS h3 (hle (by decide) (by rw [e3, e2, e1]))
  | flowEntry =>
    unfold run fetchFlowEntry
    refine (blind_removeSavedKey.follows hu).bind ?_
    rintro _ _ s1 h1 ⟨-, e1⟩
    refine ((Blind.upd fun _ _ => rfl).follows h1).bind ?_
    rintro _ _ s2 h2 ⟨-, e2⟩
    exact advancePush_follows hS h2 (hle (by decide) (by rw [e2, e1]))
  | blockEntry =>
    unfold run fetchBlockEntry
    refine (blind_blockEntryCheck.follows hu).bind ?_
    rintro _ _ s1 h1 ⟨-, e1⟩
    refine ((Blind.upd fun _ _ => rfl).follows h1).bind ?_
    rintro _ _ s2 h2 ⟨-, e2⟩
    refine (blind_removeSavedKey.follows h2).bind ?_
    rintro _ _ s3 h3 ⟨-, e3⟩
    refine ((Blind.upd fun _ _ => rfl).follows h3).bind ?_
    rintro _ _ s4 h4 ⟨-, e4⟩
    exact advancePush_follows hS h4 (hle (by decide) (by rw [e4, e3, e2, e1]))
  | explicitKey =>
    unfold run fetchExplicitKey
    refine .get ((blind_explicitKeyCheck.follows hu).bind ?_)
    rintro _ _ s1 h1 ⟨-, e1⟩
    refine (blind_removeSavedKey.follows h1).bind ?_
    rintro _ _ s2 h2 ⟨-, e2⟩
    refine ((Blind.upd fun _ _ => rfl).follows h2).bind ?_
    rintro _ _ s3 h3 ⟨-, e3⟩
    exact advancePush_follows hS h3 (hle (by decide) (by rw [e3, e2, e1]))
  | value =>
    unfold run fetchValue
    refine (blind_takeKey.follows hu).bind ?_
    rintro key _ s1 h1 ⟨rfl, e1⟩
    refine (blind_valueKey.follows h1).bind ?_
    rintro _ _ s2 h2 ⟨-, e2⟩
    exact advancePush_follows hS h2 (hle (by decide) (by rw [e2, e1]))
  | anchor =>
    unfold run fetchAnchor
    have hb : startsWith (SS.grow t k pre s).buf b! '*' = startsWith s.buf b! '*' := by
      rcases hne with h | h
      · exact startsWith_grow h _
      · show startsWith (s.buf ++ t) _ = _
        rw [hS.nil h, List.append_nil]
    refine .get ?_
    rw [hb]
    refine (sub_follows hu (hS.anchor hv hne)).bind ?_
    rintro ⟨a, c⟩ _ _ - ⟨⟨rfl, h1⟩, rfl⟩
    exact finish_follows hS (pre.fix _).symm hu h1
  | tag =>
    unfold run fetchTag
    refine (sub_follows hu (hS.tag hv)).bind ?_
    rintro ⟨a, c⟩ _ _ - ⟨⟨rfl, h1⟩, rfl⟩
    exact finish_follows hS (pre.fix _).symm hu h1
  | block fold =>
    unfold run fetchBlockScalar
    refine (blind_removeSavedKey.follows hu).bind ?_
    rintro _ _ s1 h1 ⟨-, e1⟩
    refine ((Blind.upd fun _ _ => rfl).follows h1).bind ?_
    rintro _ _ s2 h2 ⟨-, e2⟩
    refine .get ((sub_follows h2 (hS.block (by simp only [e2, e1]; exact hv) (by simp only [e2, e1]; exact hfb fold rfl))).bind ?_)
    rintro ⟨a, c⟩ _ _ - ⟨⟨rfl, h3⟩, rfl⟩
    refine (commit_follows hS h3).bind ?_
    rintro _ _ s4 h5 -
    exact (enqueue_follows rfl h5).mono fun _ _ _ _ => trivial
  | quoted =>
    unfold run fetchFlowScalar
    have hb : startsWith (SS.grow t k pre s).buf 0x27 = startsWith s.buf 0x27 := by
      rcases hne with h | h
      · exact startsWith_grow h _
      · show startsWith (s.buf ++ t) _ = _
        rw [hS.nil h, List.append_nil]
    refine .get ?_
    rw [hb]
    refine (sub_follows hu (hS.flow hv)).bind ?_
    rintro ⟨a, c⟩ _ _ - ⟨⟨rfl, h1⟩, rfl⟩
    exact finish_follows hS rfl hu h1
  | plain =>
    unfold run fetchPlainScalar
    refine .get ((sub_follows hu (hS.plain hv)).bind ?_)
    rintro ⟨a, c⟩ _ _ - ⟨⟨rfl, h1⟩, rfl⟩
    refine (blind_saveKey.follows hu).bind ?_
    rintro _ _ s1 h2 -
    refine ((Blind.upd fun _ _ => rfl).follows h2).bind ?_
    rintro _ _ s2 h3 -
    refine (commit_follows hS h1).bind ?_
    rintro _ _ s4 h5 -
    exact (enqueue_follows rfl h5).mono fun _ _ _ _ => trivial
  | unknown => exact .fail

theorem fetchStreamEnd_follows (hS : Subs pre.g U V W o o' t) (hv : V s.buf) (hn : s.buf ≠ [] ∨ W) :
    Follows U t k pre (fun _ _ _ => True) s fetchStreamEnd fetchStreamEnd := by
  have hb : (SS.grow t k pre s).buf.isEmpty = s.buf.isEmpty := by
    show (s.buf ++ t).isEmpty = s.buf.isEmpty
    rcases hn with h | h
    · exact isEmpty_grow h
    · rw [hS.nil h, List.append_nil]
  unfold fetchStreamEnd
  refine .get (.ite Iff.rfl (fun _ => .pure (hS.weak hv) trivial) fun _ => ?_)
  rw [hb]
  refine .ite Iff.rfl (fun _ => ?_) fun _ => .pure (hS.weak hv) trivial
  refine (blind_unrollIndent.follows (hS.weak hv)).bind ?_
  rintro _ _ s1 h1 -
  refine (blind_removeSavedKey.follows h1).bind ?_
  rintro _ _ s2 h2 -
  refine ((Blind.upd fun _ _ => rfl).follows h2).bind ?_
  rintro _ _ s3 h3 -
  exact (blind_push.follows h3).mono fun _ _ _ _ => trivial

theorem ite_other {α : Type} {p : Prop} [Decidable p] {a b x : α} (h : (if p then a else b) = x) (ha : a ≠ x) : b = x := by
  by_cases hp : p
  · rw [if_pos hp] at h; exact absurd h ha
  · rwa [if_neg hp] at h

/-- A block scalar begins with its indicator. -/
theorem dispatch_block {x : Context} {n : Nat} {s : Str} {fold : Bool} (h : dispatch x n s = .block fold) :
    startsWith s b! '|' = true ∨ startsWith s b! '>' = true := by
  unfold dispatch at h
  by_cases hb : ((startsWith s b! '|' || startsWith s b! '>') && x.isBlock) = true
  · simp only [Bool.and_eq_true, Bool.or_eq_true] at hb
    exact hb.1
  · rw [if_neg hb] at h
    iterate 10 replace h := ite_other h (fun h => by cases h)
    replace h := ite_other h (fun h => by cases h)
    replace h := ite_other h (fun h => by cases h)
    cases h

theorem fetchNext_follows (hS : Subs pre.g U V W o o' t) (hv : V s.buf) (hn : s.buf ≠ [] ∨ W) :
    Follows U t k pre (fun _ _ _ => True) s (fetchNext o) (fetchNext o') := by
  have hb : (SS.grow t k pre s).buf.isEmpty = s.buf.isEmpty := by
    show (s.buf ++ t).isEmpty = s.buf.isEmpty
    rcases hn with h | h
    · exact isEmpty_grow h
    · rw [hS.nil h, List.append_nil]
  unfold fetchNext
  refine .get ?_
  rw [hb]
  refine .ite Iff.rfl (fun _ => fetchStreamEnd_follows hS hv hn) fun _ => ?_
  have hg : (SS.grow t k pre s).buf = s.buf ++ t := rfl
  rw [hg]
  refine (Later.follows (V := V) hv (hS.cached hv)).bind ?_
  rintro _ _ _ - ⟨⟨h4, hd⟩, rfl⟩
  rw [hd]
  exact run_follows hS hv h4 _ fun fold => dispatch_block

/-- What a step does, if it does not ask for more, is what it does with more text. -/
theorem scanNextToken_follows (hS : Subs pre.g U V W o o' t) (hv : V s.buf) :
    Follows U t k pre (fun _ _ _ => True) s (scanNextToken o) (scanNextToken o') := by
  unfold scanNextToken
  refine .get (.ite Iff.rfl (fun _ => (blind_fetchStreamStart.follows (hS.weak hv)).mono fun _ _ _ _ => trivial) fun _ => ?_)
  refine (prepare_follows hS hv).bind ?_
  rintro _ _ s1 h1 hn
  exact fetchNext_follows hS h1 hn

end Yary.Chunk
