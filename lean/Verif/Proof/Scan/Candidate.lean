import Verif.Proof.Scan.Retro

/-! # Where possible keys are found, and when a mandatory key is missing -/

namespace Yary

open Spec

variable {opts : SFlags} {α β : Type}

/-- After skipping white space the cursor stays until the token is fetched. -/
theorem prepare_buf {s s1 : SS} (hB : Before s) (h1 : Scan.prepare opts s = (.ok (), s1)) :
    ∃ s2, Scan.eatWhitespace opts s = (.ok (), s2) ∧ s1.buf = s2.buf ∧ s1.sc.stats = s2.sc.stats := by
  unfold Scan.prepare at h1
  replace h1 := bind_ok h1
  obtain ⟨_, s2, e2, h1⟩ := h1
  have hB2 : Before s2 := ((closed_before.eatWhitespace (P := True) (opts := opts) (.inl trivial) hB).of_ok e2).1
  replace h1 := bind_ok h1
  obtain ⟨_, s3, e3, h1⟩ := h1
  replace h1 := bind_ok h1
  obtain ⟨_, s4, e4, h1⟩ := h1
  obtain ⟨rfl, rfl⟩ := get_ok e4
  replace h1 := bind_ok h1
  obtain ⟨_, s5, e5, h1⟩ := h1
  obtain ⟨hB3, hs3, -⟩ := (closed_before.expireKey (P := True) hB2).of_ok e3
  obtain ⟨hB4, hs4, -⟩ := (closed_before.unroll (P := True) _ hB3).of_ok e5
  obtain ⟨hB5, hs5, -⟩ := (closed_before.popZero (P := True) hB4).of_ok h1
  exact ⟨s2, e2, by rw [hs5.buf, hs4.buf, hs3.buf], by rw [hs5.stats, hs4.stats, hs3.stats]⟩

/-- No key is saved. -/
def Drops (m : Scan α) : Prop := ∀ s, (m s).2.sc.key = none ∨ (m s).2.sc.key = s.sc.key

namespace Drops

theorem bind {m : Scan α} {f : α → Scan β} (h : Drops m) (hf : ∀ a, Drops (f a)) : Drops (m >>= f) := by
  intro s
  simp only [Bind.bind, SO.bind]
  have h1 := h s
  generalize m s = r at h1
  obtain ⟨o, s'⟩ := r
  cases o with
  | ok a =>
    rcases hf a s' with h2 | h2
    · exact .inl h2
    · simp only at h1 h2 ⊢
      rw [h2]; exact h1
  | err e => exact h1
  | panic => exact h1
  | diverge => exact h1

theorem same {m : Scan α} (h : ∀ s, (m s).2.sc.key = s.sc.key) : Drops m := fun s => .inr (h s)
theorem pure (a : α) : Drops (Pure.pure a : Scan α) := same fun _ => rfl
theorem fail (e : ScanError) : Drops (SO.fail e : Scan α) := same fun _ => rfl
theorem get : Drops Scan.get := same fun _ => rfl
theorem upd {f : Scanner → Scanner} (h : ∀ sc, (f sc).key = sc.key := by intro; rfl) : Drops (Scan.upd f) := same fun s => h s.sc
theorem takeKey : Drops Scan.takeKey := fun _ => .inl rfl
theorem lift (x : Out ScanError α) : Drops (SO.lift x : Scan α) := same fun s => by cases x <;> rfl
theorem sub (st : MStats) (f : Cur → Out ScanError α) : Drops (Scan.sub st f) := get.bind fun _ => lift _
theorem commit (buf : Str) (st : MStats) : Drops (Scan.commit buf st) :=
  same fun s => by unfold Scan.commit; split <;> rfl
theorem advance (n : Nat) : Drops (Scan.advance n) :=
  same fun s => by unfold Scan.advance; split <;> rfl
theorem enqueue (t : MaybeToken) (r : Nat) : Drops (Scan.enqueue t r) := same fun _ => rfl
theorem push (t : Token) : Drops (Scan.push t) := same fun _ => rfl
theorem ite {c : Prop} [Decidable c] {m m' : Scan α} (h : Drops m) (h' : Drops m') :
    Drops (if c then m else m') := by split <;> assumption
theorem removeKey : Drops Scan.removeSavedKey :=
  takeKey.bind fun k => by
    cases k with
    | none => exact pure _
    | some k => exact (fail _).ite (pure _)
theorem unroll (c : Option Nat) : Drops (Scan.unrollIndent c) := same fun _ => rfl
theorem rollIndent {r l c : Nat} {map : Bool} : Drops (Scan.rollIndent r l c map) :=
  get.bind fun _ => (((upd).bind fun _ => enqueue _ _).ite
    (((upd).bind fun _ => enqueue _ _).ite (pure _))).ite (pure _)
theorem rollHere {map : Bool} : Drops (Scan.rollHere map) := get.bind fun _ => rollIndent
theorem valueBare : Drops Scan.valueBare :=
  get.bind fun _ => Drops.bind (get.bind fun _ => ((fail _).ite rollHere).ite (pure _)) fun _ => upd
theorem valueSaved (k : KeySave) : Drops (Scan.valueSaved k) :=
  rollIndent.bind fun _ => (enqueue _ _).bind fun _ => upd

/-- Only nodes and the starts of flow collections may be keys. -/
theorem run {f : Scan.Fetch} (hf : f.isNode = false) (hx : ∀ map, f ≠ .flowStart map) :
    Drops (Scan.run opts f) := by
  cases f <;> simp only [Scan.Fetch.isNode, Bool.true_eq_false] at hf <;> simp only [Scan.run]
  · exact (sub _ _).bind fun _ => (unroll _).bind fun _ => removeKey.bind fun _ => (upd).bind fun _ =>
      get.bind fun _ => (commit _ _).bind fun _ => push _
  · exact (unroll _).bind fun _ => removeKey.bind fun _ => (upd).bind fun _ => (advance _).bind fun _ =>
      push _
  · exact absurd rfl (hx _)
  · exact removeKey.bind fun _ => get.bind fun _ => (lift _).bind fun _ => (upd).bind fun _ =>
      (advance _).bind fun _ => push _
  · exact removeKey.bind fun _ => (upd).bind fun _ => (advance _).bind fun _ => push _
  · exact Drops.bind (get.bind fun _ => rollHere.ite (fail _)) fun _ => (upd).bind fun _ =>
      removeKey.bind fun _ => (upd).bind fun _ => (advance _).bind fun _ => push _
  · exact get.bind fun _ => Drops.bind (get.bind fun _ => ((fail _).ite rollHere).ite (pure _)) fun _ =>
      removeKey.bind fun _ => (upd).bind fun _ => (advance _).bind fun _ => push _
  · refine takeKey.bind fun k => Drops.bind ?_ fun _ => (advance _).bind fun _ => push _
    cases k with
    | none => exact valueBare
    | some k => exact (valueSaved k).ite valueBare
  · exact fail _

end Drops

theorem flowStart_key {map : Bool} {s s' : SS} (hs : Scan.fetchFlowStart map s = (.ok (), s')) {k : KeySave}
    (hk : s'.sc.key = some k) : s.sc.key = some k ∨ k.stats = s.sc.stats.update 1 0 1 := by
  unfold Scan.fetchFlowStart at hs
  replace hs := bind_ok hs
  obtain ⟨_, s1, h1, hs⟩ := hs
  replace hs := bind_ok hs
  obtain ⟨_, s2, h2, hs⟩ := hs
  replace hs := bind_ok hs
  obtain ⟨_, s3, h3, hs⟩ := hs
  replace hs := bind_ok hs
  obtain ⟨_, s4, h4, hs⟩ := hs
  have e1 := upd_ok h1
  have e2 := advance_ok h2
  have e3 := push_ok h3
  have e5 := upd_ok hs
  have hst : s3.sc.stats = s.sc.stats.update 1 0 1 := by
    rw [e3, e2, e1]; rfl
  have hk3 : s3.sc.key = s.sc.key := by
    rw [e3, e2, e1]; rfl
  have hk4 : s4.sc.key = some k := by rw [e5] at hk; exact hk
  unfold Scan.saveKey at h4
  replace h4 := bind_ok h4
  obtain ⟨_, t, g, h4⟩ := h4
  obtain ⟨rfl, rfl⟩ := get_ok g
  split at h4
  · replace h4 := bind_ok h4
    obtain ⟨_, t, g, h4⟩ := h4
    have e6 := upd_ok h4
    have e7 := removeKey_ok g
    rw [e6] at hk4
    simp only [Option.some.injEq] at hk4
    right
    rw [← hk4]
    simp only [KeySave.new]
    exact hst
  · have : s4 = _ := (congrArg Prod.snd h4).symm
    rw [this] at hk4
    left
    rw [← hk3]
    exact hk4

/-- A step that finds a possible key finds it after the white space, or after the bracket of a flow
collection. -/
theorem step_candidate {s s' : SS} (hB : Before s) (hs : Scan.scanNextToken opts s = (.ok (), s')) {k : KeySave}
    (hk : s'.sc.key = some k) (ha : k.possible.allowed = true) (hn : s.sc.key ≠ some k) :
    ∃ s1, Scan.eatWhitespace opts s = (.ok (), s1) ∧
      (k.stats = s1.sc.stats ∨ (∃ b t, s1.buf = b :: t ∧ (b = b! '[' ∨ b = b! '{') ∧
        k.stats = s1.sc.stats.update 1 0 1)) := by
  by_cases hst : s.sc.state = .Start
  · exfalso
    unfold Scan.scanNextToken at hs
    replace hs := bind_ok hs
    obtain ⟨_, s1, h1, hs⟩ := hs
    obtain ⟨rfl, rfl⟩ := get_ok h1
    simp only [hst, beq_self_eq_true, ↓reduceIte] at hs
    have : Drops Scan.fetchStreamStart := (Drops.upd).bind fun _ => Drops.push _
    have := this s
    rw [hs] at this
    simp only [hk, reduceCtorEq, false_or] at this
    exact hn this.symm
  · obtain ⟨s1, h1, h2⟩ := step_cases hs hst
    obtain ⟨hB1, -, -, -, -, hkey⟩ := prepare_ok hB h1
    obtain ⟨s2, h3, h4, h5⟩ := prepare_buf hB h1
    have old : s1.sc.key ≠ some k := by
      intro h
      rcases hkey k h with h | ⟨k0, -, h⟩
      · exact hn h
      · rw [h] at ha; cases ha
    have drops : Drops (Scan.fetchStreamEnd) :=
      Drops.get.bind fun _ => (Drops.pure _).ite (((Drops.unroll _).bind fun _ =>
        Drops.removeKey.bind fun _ => (Drops.upd).bind fun _ => Drops.push _).ite (Drops.pure _))
    refine ⟨s2, h3, ?_⟩
    rcases h2 with ⟨-, h2⟩ | ⟨-, h2⟩
    · have := drops s1
      rw [h2] at this
      simp only [hk, reduceCtorEq, false_or] at this
      exact absurd this.symm old
    · by_cases hnode : (Scan.dispatch s1.sc.context s1.sc.stats.column s1.buf).isNode = true
      · rcases (run_node hB1 hnode h2).key k hk with h | h
        · exact absurd h old
        · exact .inl (h.trans h5)
      · have hds := Closed.dispatch_starts s1.sc.context s1.sc.stats.column s1.buf
        generalize Scan.dispatch s1.sc.context s1.sc.stats.column s1.buf = f at h2 hnode hds
        by_cases hf : ∃ map, f = .flowStart map
        · obtain ⟨map, rfl⟩ := hf
          obtain ⟨t, ht⟩ := hds
          rcases flowStart_key h2 hk with h | h
          · exact absurd h old
          · refine .inr ⟨_, t, by rw [← h4]; exact ht, ?_, by rw [← h5]; exact h⟩
            cases map <;> simp
        · have := Drops.run (opts := opts) (by simpa using hnode) (fun map h => hf ⟨map, h⟩) s1
          rw [h2] at this
          simp only [hk, reduceCtorEq, false_or] at this
          exact absurd this.symm old

/-- A mandatory key that has expired is an error. -/
theorem step_expired {s s1 : SS} (hst : s.sc.state ≠ .Start) {k : KeySave} (hk : s.sc.key = some k)
    (hr : k.possible = .Required) (h : Scan.eatWhitespace opts s = (.ok (), s1))
    (hfar : k.stats.lines < s1.sc.stats.lines ∨ k.stats.read + 1024 < s1.sc.stats.read) :
    (Scan.scanNextToken opts s).1 = .err .MissingValue := by
  have hk1 : s1.sc.key = some k := by
    obtain ⟨c, -, rfl⟩ := eatWhitespace_ok h
    exact hk
  have he : Scan.expireKey s1 = (.err .MissingValue, s1) := by
    unfold Scan.expireKey
    simp only [bind, SO.bind, Scan.get, SO.get, hk1, hr, KeyPossible.allowed, KeyPossible.required, Bool.true_and,
      Bool.or_eq_true, decide_eq_true_eq, hfar, ↓reduceIte, SO.fail]
  have hst' : (s.sc.state == .Start) = false := by simpa using hst
  have hget : Scan.get s = (.ok s, s) := rfl
  unfold Scan.scanNextToken
  simp only [bind, SO.bind, hget, hst', Bool.false_eq_true, ↓reduceIte, Scan.prepare, h, he]

/-- No key is left. -/
def Clears (m : Scan α) : Prop := ∀ s a s', m s = (.ok a, s') → s'.sc.key = none

namespace Clears

theorem left {m : Scan α} {f : α → Scan β} (h : Clears m) (hf : ∀ a, Drops (f a)) : Clears (m >>= f) := by
  intro s b s' hs
  obtain ⟨a, s1, h1, h2⟩ := bind_ok hs
  have := h s a s1 h1
  rcases hf a s1 with h3 | h3
  · rw [h2] at h3; exact h3
  · rw [h2, this] at h3; exact h3

theorem right {m : Scan α} {f : α → Scan β} (hf : ∀ a, Clears (f a)) : Clears (m >>= f) := by
  intro s b s' hs
  obtain ⟨a, s1, h1, h2⟩ := bind_ok hs
  exact hf a s1 b s' h2

theorem removeKey : Clears Scan.removeSavedKey := fun s _ s' h => by rw [removeKey_ok h]; rfl
theorem takeKey : Clears Scan.takeKey := fun s a s' h => by rw [(takeKey_ok h).2]; rfl
theorem fail (e : ScanError) : Clears (SO.fail e : Scan α) := fun s a s' h => by simp [SO.fail] at h

/-- Whatever is not a node and not the start of a flow collection leaves no key. -/
theorem run {f : Scan.Fetch} (hf : f.isNode = false) (hx : ∀ map, f ≠ .flowStart map) :
    Clears (Scan.run opts f) := by
  cases f <;> simp only [Scan.Fetch.isNode, Bool.true_eq_false] at hf <;> simp only [Scan.run]
  · exact right fun _ => right fun _ => removeKey.left fun _ => (Drops.upd).bind fun _ =>
      Drops.get.bind fun _ => (Drops.commit _ _).bind fun _ => Drops.push _
  · exact right fun _ => removeKey.left fun _ => (Drops.upd).bind fun _ => (Drops.advance _).bind fun _ =>
      Drops.push _
  · exact absurd rfl (hx _)
  · exact removeKey.left fun _ => Drops.get.bind fun _ => (Drops.lift _).bind fun _ => (Drops.upd).bind fun _ =>
      (Drops.advance _).bind fun _ => Drops.push _
  · exact removeKey.left fun _ => (Drops.upd).bind fun _ => (Drops.advance _).bind fun _ => Drops.push _
  · exact right fun _ => right fun _ => removeKey.left fun _ => (Drops.upd).bind fun _ =>
      (Drops.advance _).bind fun _ => Drops.push _
  · exact right fun _ => right fun _ => removeKey.left fun _ => (Drops.upd).bind fun _ =>
      (Drops.advance _).bind fun _ => Drops.push _
  · refine takeKey.left fun k => Drops.bind ?_ fun _ => (Drops.advance _).bind fun _ => Drops.push _
    cases k with
    | none => exact Drops.valueBare
    | some k => exact (Drops.valueSaved k).ite Drops.valueBare
  · exact fail _

end Clears

/-- A flow collection begins with one byte. -/
theorem flowStart_reads {map : Bool} {s s' : SS} (hs : Scan.fetchFlowStart map s = (.ok (), s')) :
    s'.buf = s.buf.drop 1 ∧ s'.sc.stats = s.sc.stats.update 1 0 1 := by
  unfold Scan.fetchFlowStart at hs
  replace hs := bind_ok hs
  obtain ⟨_, s1, h1, hs⟩ := hs
  replace hs := bind_ok hs
  obtain ⟨_, s2, h2, hs⟩ := hs
  replace hs := bind_ok hs
  obtain ⟨_, s3, h3, hs⟩ := hs
  replace hs := bind_ok hs
  obtain ⟨_, s4, h4, hs⟩ := hs
  have e1 := upd_ok h1
  have e2 := advance_ok h2
  have e3 := push_ok h3
  have e5 := upd_ok hs
  have h34 : s4.buf = s3.buf ∧ s4.sc.stats = s3.sc.stats := by
    unfold Scan.saveKey at h4
    replace h4 := bind_ok h4
    obtain ⟨_, t, g, h4⟩ := h4
    obtain ⟨rfl, rfl⟩ := get_ok g
    split at h4
    · replace h4 := bind_ok h4
      obtain ⟨_, t, g, h4⟩ := h4
      have e6 := upd_ok h4
      have e7 := removeKey_ok g
      rw [e6, e7]
      exact ⟨rfl, rfl⟩
    · have : s4 = _ := (congrArg Prod.snd h4).symm
      rw [this]
      exact ⟨rfl, rfl⟩
  rw [e5]
  simp only [h34]
  rw [e3, e2, e1]
  exact ⟨rfl, rfl⟩

end Yary
