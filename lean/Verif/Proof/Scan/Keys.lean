import Verif.Proof.Scan.Asc
import Verif.Spec.Steps

/-! # What each step pushes, and saved keys -/

namespace Yary

open Spec

variable {opts : SFlags} {α β : Type} {S : TokenEntry → Prop}

/-- Every outcome of `m` leaves what was pushed and adds only tokens satisfying `S`. -/
def Adds (S : TokenEntry → Prop) (m : Scan α) : Prop :=
  ∀ s, ∃ l, (m s).2.out = s.out ++ l ∧ ∀ e ∈ l, S e

namespace Adds

theorem same {m : Scan α} (h : ∀ s, (m s).2.out = s.out) : Adds S m :=
  fun s => ⟨[], by rw [h]; simp, fun e he => (by cases he)⟩

theorem one {m : Scan α} (h : ∀ s, ∃ e, (m s).2.out = s.out ++ [e] ∧ S e) : Adds S m := by
  intro s
  obtain ⟨e, h1, h2⟩ := h s
  exact ⟨[e], h1, fun x hx => by simp only [List.mem_singleton] at hx; subst hx; exact h2⟩

theorem bind {m : Scan α} {f : α → Scan β} (h : Adds S m) (hf : ∀ a, Adds S (f a)) :
    Adds S (m >>= f) := by
  intro s
  simp only [Bind.bind, SO.bind]
  obtain ⟨l, h1, h2⟩ := h s
  generalize m s = r at h1
  obtain ⟨o, s'⟩ := r
  cases o with
  | ok a =>
    obtain ⟨l', h3, h4⟩ := hf a s'
    simp only at h1 h3 ⊢
    refine ⟨l ++ l', by rw [h3, h1, List.append_assoc], fun e he => ?_⟩
    rcases List.mem_append.1 he with he | he
    · exact h2 e he
    · exact h4 e he
  | _ => exact ⟨l, h1, h2⟩

theorem pure (a : α) : Adds S (Pure.pure a : Scan α) := same fun _ => rfl
theorem fail (e : ScanError) : Adds S (SO.fail e : Scan α) := same fun _ => rfl
theorem get : Adds S Scan.get := same fun _ => rfl
theorem upd (f : Scanner → Scanner) : Adds S (Scan.upd f) := same fun _ => rfl
theorem takeKey : Adds S Scan.takeKey := same fun _ => rfl

theorem lift (x : Out ScanError α) : Adds S (SO.lift x : Scan α) :=
  same fun s => by cases x <;> rfl

theorem sub (st : MStats) (f : Cur → Out ScanError α) : Adds S (Scan.sub st f) :=
  get.bind fun _ => lift _

theorem commit (buf : Str) (st : MStats) : Adds S (Scan.commit buf st) :=
  same fun s => by unfold Scan.commit; split <;> rfl

theorem advance (n : Nat) : Adds S (Scan.advance n) :=
  same fun s => by unfold Scan.advance; split <;> rfl

theorem enqueue {t : MaybeToken} {r : Nat} (h : S ⟨t, r⟩) : Adds S (Scan.enqueue t r) :=
  one fun _ => ⟨_, rfl, h⟩

theorem push {t : Token} (h : ∀ r, S ⟨.Token t, r⟩) : Adds S (Scan.push t) :=
  one fun s => ⟨_, rfl, h _⟩

theorem ite {c : Prop} [Decidable c] {m m' : Scan α} (h : Adds S m) (h' : Adds S m') :
    Adds S (if c then m else m') := by split <;> assumption

theorem removeKey : Adds S Scan.removeSavedKey :=
  takeKey.bind fun k => by
    cases k with
    | none => exact pure _
    | some k => exact (fail _).ite (pure _)

theorem saveKey : Adds S Scan.saveKey :=
  get.bind fun _ => (removeKey.bind fun _ => upd _).ite (pure _)

theorem unroll (h : ∀ r, S ⟨.Token .BlockEnd, r⟩) (c : Option Nat) : Adds S (Scan.unrollIndent c) :=
  fun s => ⟨_, rfl, fun e he => by rw [(List.mem_replicate.1 he).2]; exact h _⟩

theorem popZero (h : ∀ r, S ⟨.Token .BlockEnd, r⟩) : Adds S Scan.popZeroIndent := by
  intro s
  unfold Scan.popZeroIndent SO.modify
  simp only
  split
  · exact ⟨[], by simp, fun e he => (by cases he)⟩
  · split
    · exact ⟨_, rfl, fun e he => by simp only [List.mem_singleton] at he; subst he; exact h _⟩
    · exact ⟨[], by simp, fun e he => (by cases he)⟩

theorem expire : Adds S Scan.expireKey :=
  get.bind fun s => by
    cases s.sc.key with
    | none => exact pure _
    | some k => exact ((fail _).ite (upd _)).ite (pure _)

theorem eatWhitespace : Adds S (Scan.eatWhitespace opts) :=
  (sub _ _).bind fun _ => (upd _).bind fun _ => get.bind fun _ => commit _ _

theorem prepare (h : ∀ r, S ⟨.Token .BlockEnd, r⟩) : Adds S (Scan.prepare opts) :=
  eatWhitespace.bind fun _ => expire.bind fun _ => get.bind fun _ => (unroll h _).bind fun _ => popZero h

theorem rollIndent {r l c : Nat} {map : Bool}
    (h : S ⟨.Token (if map then .BlockMappingStart else .BlockSequenceStart), r⟩) :
    Adds S (Scan.rollIndent r l c map) :=
  get.bind fun _ => (((upd _).bind fun _ => enqueue h).ite
    (((upd _).bind fun _ => enqueue h).ite (pure _))).ite (pure _)

theorem rollHere {map : Bool}
    (h : ∀ r, S ⟨.Token (if map then .BlockMappingStart else .BlockSequenceStart), r⟩) :
    Adds S (Scan.rollHere map) := get.bind fun _ => rollIndent (h _)

end Adds

/-- Not the token of a node or a key. -/
def Quiet (e : TokenEntry) : Prop := isNode e.wrap.marker = false ∧ e.wrap.marker ≠ .Key

/-- Which fetches push the token of a node. -/
def Scan.Fetch.isNode : Scan.Fetch → Bool
  | .anchor => true
  | .tag => true
  | .block _ => true
  | .quoted => true
  | .plain => true
  | _ => false

theorem bind_ok {m : Scan α} {f : α → Scan β} {s s' : SS} {b : β} (h : (m >>= f) s = (.ok b, s')) :
    ∃ a s1, m s = (.ok a, s1) ∧ f a s1 = (.ok b, s') := by
  simp only [bind, SO.bind] at h
  generalize m s = r at h
  obtain ⟨o, s1⟩ := r
  cases o with
  | ok a => exact ⟨a, s1, rfl, h⟩
  | err e => simp at h
  | panic => simp at h
  | diverge => simp at h

theorem Holds.of_ok {P : Prop} {m : Scan α} {s s' : SS} {a : α} {Q : α → SS → Prop} {E : SS → Prop}
    (h : Holds P m s Q E) (hm : m s = (.ok a, s')) : Q a s' := by
  simpa only [Holds, hm] using h

theorem Adds.of_eq {m : Scan α} {s s' : SS} {o : Out ScanError α} (h : Adds S m) (hm : m s = (o, s')) :
    ∃ l, s'.out = s.out ++ l ∧ ∀ e ∈ l, S e := by
  have := h s
  rwa [hm] at this

/-- A token that is neither. -/
macro "quiet" : tactic => `(tactic| simp [Quiet, Spec.isNode, MaybeToken.marker, Marker.ofToken])

theorem quiet_start (map : Bool) (r : Nat) :
    Quiet ⟨.Token (if map then .BlockMappingStart else .BlockSequenceStart), r⟩ := by
  cases map <;> quiet

/-- A step other than the first. -/
theorem step_cases_live {s s' : SS} (hs : Scan.scanNextToken opts s = (.ok (), s')) (hst : s.sc.state ≠ .Start) :
    ∃ s1, Scan.prepare opts s = (.ok (), s1) ∧
      (((s1.buf = [] ∨ s1.sc.state = .Done) ∧ Scan.fetchStreamEnd s1 = (.ok (), s')) ∨
       ((s1.buf ≠ [] ∧ s1.sc.state ≠ .Done) ∧ Scan.run opts (Scan.dispatch s1.sc.context s1.sc.stats.column s1.buf) s1 = (.ok (), s'))) := by
  unfold Scan.scanNextToken at hs
  replace hs := bind_ok hs
  obtain ⟨a, s0, h1, hs⟩ := hs
  obtain ⟨rfl, rfl⟩ : s = a ∧ s = s0 := by simpa [Scan.get, SO.get] using h1
  have hst' : (s.sc.state == .Start) = false := by simpa using hst
  simp only [hst', Bool.false_eq_true, ↓reduceIte] at hs
  replace hs := bind_ok hs
  obtain ⟨_, s1, h2, hs⟩ := hs
  refine ⟨s1, h2, ?_⟩
  unfold Scan.fetchNext at hs
  replace hs := bind_ok hs
  obtain ⟨a, s0, h1, hs⟩ := hs
  obtain ⟨rfl, rfl⟩ : s1 = a ∧ s1 = s0 := by simpa [Scan.get, SO.get] using h1
  by_cases he : (s1.buf.isEmpty || s1.sc.state == .Done) = true
  · simp only [he, ↓reduceIte] at hs
    exact .inl ⟨by simpa using he, hs⟩
  · simp only [he, Bool.false_eq_true, ↓reduceIte] at hs
    replace hs := bind_ok hs
    obtain ⟨_, s2, h1, hs⟩ := hs
    have : s2 = s1 := by
      generalize cache opts 4 s1.buf = x at h1
      cases x <;> simp [SO.lift] at h1
      exact h1.symm
    subst this
    refine .inr ⟨⟨?_, ?_⟩, hs⟩ <;> (intro h; simp [h] at he)

/-- A step other than the first. -/
theorem step_cases {s s' : SS} (hs : Scan.scanNextToken opts s = (.ok (), s')) (hst : s.sc.state ≠ .Start) :
    ∃ s1, Scan.prepare opts s = (.ok (), s1) ∧
      (((s1.buf = [] ∨ s1.sc.state = .Done) ∧ Scan.fetchStreamEnd s1 = (.ok (), s')) ∨
       (s1.buf ≠ [] ∧ Scan.run opts (Scan.dispatch s1.sc.context s1.sc.stats.column s1.buf) s1 = (.ok (), s'))) := by
  obtain ⟨s1, h1, h2⟩ := step_cases_live hs hst
  exact ⟨s1, h1, h2.imp_right fun h => ⟨h.1.1, h.2⟩⟩

theorem quiet_end (r : Nat) : Quiet ⟨.Token .BlockEnd, r⟩ := by quiet

/-- The fetches that push neither a node nor a key. -/
theorem run_quiet {f : Scan.Fetch} (hf : f.isNode = false) (hv : f ≠ .value) (hx : f ≠ .explicitKey) {s s' : SS}
    (hd : f = .directive → ∃ t, s.buf = b! '%' :: t)
    (hs : Scan.run opts f s = (.ok (), s')) : ∃ l, s'.out = s.out ++ l ∧ ∀ e ∈ l, Quiet e := by
  cases f <;> simp only [Scan.Fetch.isNode, Bool.true_eq_false] at hf <;> simp only [Scan.run] at hs
  · obtain ⟨t, ht⟩ := hd rfl
    unfold Scan.fetchDirective at hs
    obtain ⟨⟨tok, c⟩, s1, h1, hs⟩ := bind_ok hs
    have hsat := directiveToken_sat (P := True) (opts := opts) (t := t) (m := {}) (.inl trivial) (.inl trivial)
    simp only [Scan.sub, Scan.get, SO.get, bind, SO.bind, SO.lift, ht] at h1
    generalize Scan.directiveToken opts ⟨b! '%' :: t, {}⟩ = x at h1 hsat
    cases x <;> simp at h1
    obtain ⟨rfl, rfl⟩ := h1
    have htok := hsat.2.2
    simp only at htok
    refine Adds.of_eq ?_ hs
    refine (Adds.unroll quiet_end _).bind fun _ => Adds.removeKey.bind fun _ => (Adds.upd _).bind fun _ =>
      Adds.get.bind fun _ => (Adds.commit _ _).bind fun _ => Adds.push fun r => ?_
    rcases htok with ⟨a, b, rfl⟩ | ⟨a, b, rfl⟩ <;> quiet
  · refine Adds.of_eq ?_ hs
    rename_i start
    exact (Adds.unroll quiet_end _).bind fun _ => Adds.removeKey.bind fun _ => (Adds.upd _).bind fun _ =>
      (Adds.advance _).bind fun _ => Adds.push fun r => by cases start <;> quiet
  · refine Adds.of_eq ?_ hs
    rename_i map
    exact (Adds.upd _).bind fun _ => (Adds.advance _).bind fun _ =>
      (Adds.push fun r => by cases map <;> quiet).bind fun _ => Adds.saveKey.bind fun _ => Adds.upd _
  · refine Adds.of_eq ?_ hs
    rename_i map
    exact Adds.removeKey.bind fun _ => Adds.get.bind fun _ => (Adds.lift _).bind fun _ =>
      (Adds.upd _).bind fun _ => (Adds.advance _).bind fun _ => Adds.push fun r => by cases map <;> quiet
  · refine Adds.of_eq ?_ hs
    exact Adds.removeKey.bind fun _ => (Adds.upd _).bind fun _ => (Adds.advance _).bind fun _ =>
      Adds.push fun r => by quiet
  · refine Adds.of_eq ?_ hs
    exact (Adds.get.bind fun _ => (Adds.rollHere (quiet_start _)).ite (Adds.fail _)).bind fun _ =>
      (Adds.upd _).bind fun _ => Adds.removeKey.bind fun _ => (Adds.upd _).bind fun _ =>
      (Adds.advance _).bind fun _ => Adds.push fun r => by quiet
  · exact absurd rfl hx
  · exact absurd rfl hv
  · simp [SO.fail] at hs

/-- The fetches that push a node. -/
theorem run_node {s s' : SS} (hB : Before s)
    (hf : (Scan.dispatch s.sc.context s.sc.stats.column s.buf).isNode = true)
    (hs : Scan.run opts (Scan.dispatch s.sc.context s.sc.stats.column s.buf) s = (.ok (), s')) :
    NodePut s s' := by
  have hd := Closed.dispatch_starts s.sc.context s.sc.stats.column s.buf
  have hp := Closed.dispatch_plain (x := s.sc.context) (column := s.sc.stats.column) (s := s.buf)
  generalize Scan.dispatch s.sc.context s.sc.stats.column s.buf = f at hs hf hd hp
  have hC := closed_before
  cases f with
  | anchor =>
    obtain ⟨t, ht | ht⟩ := hd
    · exact ((hC.fetchAnchor (P := True) (.inl trivial) hB ht (by decide)).of_ok hs).2
    · exact ((hC.fetchAnchor (P := True) (.inl trivial) hB ht (by decide)).of_ok hs).2
  | tag =>
    obtain ⟨t, ht⟩ := hd
    exact ((hC.fetchTag (P := True) (.inl trivial) (.inl trivial) hB ht).of_ok hs).2
  | block fold =>
    obtain ⟨⟨t, ht⟩, -⟩ := hd
    exact ((hC.fetchBlockScalar (P := True) (.inl trivial) hB ht (by cases fold <;> decide)).of_ok hs).2
  | quoted =>
    obtain ⟨t, ht | ht⟩ := hd
    · exact ((hC.fetchFlowScalar (P := True) (.inl trivial) (.inl trivial) hB ht (by decide) (by decide)).of_ok hs).2
    · exact ((hC.fetchFlowScalar (P := True) (.inl trivial) (.inl trivial) hB ht (by decide) (by decide)).of_ok hs).2
  | plain => exact ((hC.fetchPlainScalar (P := True) (.inl trivial) hB (hp rfl _ rfl)).of_ok hs).2
  | _ => simp [Scan.Fetch.isNode] at hf


theorem Adds.none {m : Scan α} {s s' : SS} {o : Out ScanError α} (h : Adds (fun _ => False) m)
    (hm : m s = (o, s')) : s'.out = s.out := by
  obtain ⟨l, h1, h2⟩ := h.of_eq hm
  cases l with
  | nil => simpa using h1
  | cons e l => exact (h2 e (by simp)).elim

theorem push_ok {t : Token} {s s' : SS} {o : Out ScanError Unit} (h : Scan.push t s = (o, s')) :
    s' = s.put (.Token t) s.sc.stats.read := (congrArg Prod.snd h).symm

theorem get_ok {s s' a : SS} (h : Scan.get s = (.ok a, s')) : s = a ∧ s = s' := by
  simp only [Scan.get, SO.get, Prod.mk.injEq, Out.ok.injEq] at h
  exact h

theorem commit_ok {buf : Str} {st : MStats} {s s' : SS} (h : Scan.commit buf st s = (.ok (), s')) :
    s' = s.move ⟨buf, st⟩ := by
  unfold Scan.commit at h
  by_cases hb : isBoundary s.buf (s.buf.length - buf.length) = true
  · simp only [hb, ↓reduceIte, Prod.mk.injEq] at h
    exact h.2.symm
  · simp [hb] at h

theorem upd_ok {f : Scanner → Scanner} {s s' : SS} {o : Out ScanError Unit} (h : Scan.upd f s = (o, s')) :
    s' = { s with sc := f s.sc } := (congrArg Prod.snd h).symm

theorem takeKey_ok {s s' : SS} {k : Option KeySave} (h : Scan.takeKey s = (.ok k, s')) :
    k = s.sc.key ∧ s' = s.setKey .none := by
  have : (.ok s.sc.key, s.setKey .none) = ((.ok k, s') : Out ScanError _ × SS) := h
  simp only [Prod.mk.injEq, Out.ok.injEq] at this
  exact ⟨this.1.symm, this.2.symm⟩

theorem advance_ok {n : Nat} {s s' : SS} (h : Scan.advance n s = (.ok (), s')) :
    s' = s.move ⟨s.buf.drop n, s.sc.stats.update n 0 n⟩ := by
  unfold Scan.advance Cur.adv at h
  by_cases hb : isBoundary s.buf n = true
  · simp only [hb, ↓reduceIte, Prod.mk.injEq] at h
    exact h.2.symm
  · simp [hb] at h

theorem removeKey_ok {s s' : SS} (h : Scan.removeSavedKey s = (.ok (), s')) : s' = s.setKey none := by
  unfold Scan.removeSavedKey at h
  replace h := bind_ok h
  obtain ⟨k, s1, h1, h⟩ := h
  obtain ⟨rfl, rfl⟩ := takeKey_ok h1
  cases hk : s.sc.key with
  | none => rw [hk] at h; exact (congrArg Prod.snd h).symm
  | some k =>
    simp only [hk] at h
    split at h
    · simp [SO.fail] at h
    · exact (congrArg Prod.snd h).symm

/-- An explicit key. -/
theorem run_explicitKey {s s' : SS} (hs : Scan.fetchExplicitKey s = (.ok (), s')) :
    ∃ l, s'.out = s.out ++ l ++ [⟨.Token .Key, s'.sc.stats.read⟩] ∧ (∀ e ∈ l, Quiet e) ∧
      s'.sc.stats.read = s.sc.stats.read + 1 := by
  unfold Scan.fetchExplicitKey at hs
  replace hs := bind_ok hs
  obtain ⟨_, s0, h0, hs⟩ := hs
  obtain ⟨rfl, rfl⟩ := get_ok h0
  replace hs := bind_ok hs
  obtain ⟨_, s1, h1, hs⟩ := hs
  replace hs := bind_ok hs
  obtain ⟨_, s2, h2, hs⟩ := hs
  replace hs := bind_ok hs
  obtain ⟨_, s3, h3, hs⟩ := hs
  replace hs := bind_ok hs
  obtain ⟨_, s4, h4, hs⟩ := hs
  obtain ⟨l, e1, hl⟩ := Adds.of_eq (S := Quiet) (Adds.get.bind fun _ =>
    ((Adds.fail _).ite (Adds.rollHere (quiet_start _))).ite (Adds.pure _)) h1
  have e2 := Adds.none Adds.removeKey h2
  have e3 := Adds.none (Adds.upd _) h3
  have e4 := Adds.none (Adds.advance _) h4
  have := push_ok hs
  subst this
  have f1 : s1.sc.stats = s.sc.stats := by
    unfold Scan.explicitKeyCheck at h1
    replace h1 := bind_ok h1
    obtain ⟨_, t, g, h1⟩ := h1
    obtain ⟨rfl, rfl⟩ := get_ok g
    split at h1
    · split at h1
      · simp [SO.fail] at h1
      · unfold Scan.rollHere at h1
        replace h1 := bind_ok h1
        obtain ⟨_, t, g, h1⟩ := h1
        obtain ⟨rfl, rfl⟩ := get_ok g
        unfold Scan.rollIndent at h1
        replace h1 := bind_ok h1
        obtain ⟨_, t, g, h1⟩ := h1
        obtain ⟨rfl, rfl⟩ := get_ok g
        simp only at h1
        repeat' split at h1
        all_goals (have : s1 = _ := (congrArg Prod.snd h1).symm; rw [this]; rfl)
    · have : s1 = _ := (congrArg Prod.snd h1).symm; rw [this]; rfl
  have f2 := removeKey_ok h2
  have f3 := upd_ok h3
  have f4 := advance_ok h4
  refine ⟨l, by simp only [SS.put]; rw [e4, e3, e2, e1], hl, ?_⟩
  simp only [SS.put]
  rw [f4, f3, f2]
  simp only [SS.move, SS.setKey, MStats.update, f1]

/-- A value without a possible key. -/
theorem run_value_bare {s s' : SS} (hk : ∀ k, s.sc.key = some k → k.possible.allowed = false)
    (hs : Scan.fetchValue s = (.ok (), s')) :
    ∃ l, s'.out = s.out ++ l ∧ ∀ e ∈ l, Quiet e := by
  unfold Scan.fetchValue at hs
  replace hs := bind_ok hs
  obtain ⟨_, s1, h1, hs⟩ := hs
  obtain ⟨rfl, rfl⟩ := takeKey_ok h1
  have bare : Adds Quiet Scan.valueBare :=
      Adds.get.bind fun _ => (Adds.get.bind fun _ => ((Adds.fail _).ite (Adds.rollHere (quiet_start _))).ite
      (Adds.pure _)).bind fun _ => Adds.upd _
  have h : Adds Quiet (Scan.valueKey s.sc.key) := by
    cases hk' : s.sc.key with
    | none => exact bare
    | some k => simp only [Scan.valueKey, hk k hk', Bool.false_eq_true, ↓reduceIte]; exact bare
  exact Adds.of_eq (s := s.setKey none) (h.bind fun _ => (Adds.advance _).bind fun _ => Adds.push fun r => by quiet) hs

/-- A value with a possible key: a block mapping may start, at the key. -/
theorem run_value_saved {s s' : SS} {k : KeySave} (hk : s.sc.key = some k) (ha : k.possible.allowed = true)
    (hs : Scan.fetchValue s = (.ok (), s')) :
    ∃ l, (l = [] ∨ l = [⟨.Token .BlockMappingStart, k.stats.read⟩]) ∧
      s'.out = s.out ++ l ++ [⟨.Token .Key, k.stats.read⟩, ⟨.Token .Value, s.sc.stats.read + 1⟩] ∧
      s'.buf = s.buf.drop 1 ∧ s'.sc.stats = s.sc.stats.update 1 0 1 ∧ s'.sc.key = none := by
  unfold Scan.fetchValue at hs
  replace hs := bind_ok hs
  obtain ⟨_, s1, h1, hs⟩ := hs
  obtain ⟨rfl, rfl⟩ := takeKey_ok h1
  replace hs := bind_ok hs
  obtain ⟨_, s2, h2, hs⟩ := hs
  replace hs := bind_ok hs
  obtain ⟨_, s3, h3, hs⟩ := hs
  have := push_ok hs
  subst this
  have := advance_ok h3
  subst this
  simp only [hk, Scan.valueKey, ha, ↓reduceIte] at h2
  unfold Scan.valueSaved at h2
  replace h2 := bind_ok h2
  obtain ⟨_, s4, h4, h2⟩ := h2
  replace h2 := bind_ok h2
  obtain ⟨_, s5, h5, h2⟩ := h2
  have := upd_ok h2
  subst this
  have : s5 = s4.put (.Token .Key) k.stats.read := (congrArg Prod.snd h5).symm
  subst this
  have key : ∃ l, (l = [] ∨ l = [⟨.Token .BlockMappingStart, k.stats.read⟩]) ∧ s4.out = s.out ++ l ∧
      s4.sc.stats = s.sc.stats ∧ s4.sc.key = none ∧ s4.buf = s.buf := by
    unfold Scan.rollIndent at h4
    replace h4 := bind_ok h4
    obtain ⟨_, s6, h6, h4⟩ := h4
    obtain ⟨rfl, rfl⟩ := get_ok h6
    simp only at h4
    split at h4
    · split at h4
      · have : s4 = _ := (congrArg Prod.snd h4).symm
        subst this
        exact ⟨_, .inr rfl, rfl, rfl, rfl, rfl⟩
      · have : s4 = _ := (congrArg Prod.snd h4).symm
        subst this
        exact ⟨[], .inl rfl, by simp [Pure.pure, SO.pure, SS.setKey], rfl, rfl, rfl⟩
    · have : s4 = _ := (congrArg Prod.snd h4).symm
      subst this
      exact ⟨[], .inl rfl, by simp [Pure.pure, SO.pure, SS.setKey], rfl, rfl, rfl⟩
  obtain ⟨l, hl, e1, e2, e3, e4⟩ := key
  refine ⟨l, hl, ?_, ?_, ?_, e3⟩
  · simp only [SS.put, SS.move, e1, e2, MStats.update]
    simp
  · simp only [SS.put, SS.move, e4]
  · simp only [SS.put, SS.move, e2]

/-- What precedes a token. -/
theorem prepare_ok {s s1 : SS} (hB : Before s) (hs : Scan.prepare opts s = (.ok (), s1)) :
    Before s1 ∧ Reads ⟨s.buf, s.sc.stats⟩ ⟨s1.buf, s1.sc.stats⟩ ∧ s1.sc.state = s.sc.state ∧ Closed.Fresh s1 ∧
      (∃ l, s1.out = s.out ++ l ∧ ∀ e ∈ l, Quiet e) ∧
      (∀ k, s1.sc.key = some k → s.sc.key = some k ∨
        ∃ k0, s.sc.key = some k0 ∧ k = { k0 with possible := .No }) := by
  obtain ⟨h1, h2, h3, h4⟩ := (closed_before.prepare (P := True) (opts := opts) (.inl trivial) hB).of_ok hs
  refine ⟨h1, h2, h3, h4, (Adds.prepare quiet_end).of_eq hs, ?_⟩
  unfold Scan.prepare at hs
  replace hs := bind_ok hs
  obtain ⟨_, s2, e2, hs⟩ := hs
  replace hs := bind_ok hs
  obtain ⟨_, s3, e3, hs⟩ := hs
  replace hs := bind_ok hs
  obtain ⟨_, s4, e4, hs⟩ := hs
  obtain ⟨rfl, rfl⟩ := get_ok e4
  replace hs := bind_ok hs
  obtain ⟨_, s5, e5, hs⟩ := hs
  have k2 : s2.sc.key = s.sc.key := by
    unfold Scan.eatWhitespace at e2
    replace e2 := bind_ok e2
    obtain ⟨c, t1, f1, e2⟩ := e2
    replace e2 := bind_ok e2
    obtain ⟨_, t2, f2, e2⟩ := e2
    replace e2 := bind_ok e2
    obtain ⟨_, t3, f3, e2⟩ := e2
    obtain ⟨rfl, rfl⟩ := get_ok f3
    have := upd_ok f2
    subst this
    have : t1 = s := by
      unfold Scan.sub at f1
      replace f1 := bind_ok f1
      obtain ⟨_, t2, f2, f1⟩ := f1
      obtain ⟨rfl, rfl⟩ := get_ok f2
      unfold SO.lift at f1
      generalize eatWs opts true _ = x at f1
      cases x <;> simp at f1
      exact f1.2.symm
    subst this
    rw [commit_ok e2]
    rfl
  have k3 : ∀ k, s3.sc.key = some k → s2.sc.key = some k ∨
      ∃ k0, s2.sc.key = some k0 ∧ k = { k0 with possible := .No } := by
    unfold Scan.expireKey at e3
    replace e3 := bind_ok e3
    obtain ⟨_, t1, f1, e3⟩ := e3
    obtain ⟨rfl, rfl⟩ := get_ok f1
    cases hk : s2.sc.key with
    | none =>
      simp only [hk] at e3
      have : s3 = s2 := (congrArg Prod.snd e3).symm
      subst this
      intro k h; rw [hk] at h; cases h
    | some k =>
      simp only [hk] at e3
      split at e3
      · split at e3
        · simp [SO.fail] at e3
        · have := upd_ok e3
          subst this
          intro k' h
          simp only [Option.some.injEq] at h
          exact .inr ⟨k, rfl, h.symm⟩
      · have : s3 = s2 := (congrArg Prod.snd e3).symm
        subst this
        intro k h; exact .inl (hk ▸ h)
  have k5 : s5.sc.key = s3.sc.key := by
    have : s5 = _ := (congrArg Prod.snd e5).symm
    rw [this]; rfl
  have k6 : s1.sc.key = s5.sc.key := by
    have : s1 = _ := (congrArg Prod.snd hs).symm
    rw [this]
    simp only [Scan.popZeroIndent, SO.modify]
    split
    · rfl
    · split <;> rfl
  rw [k6, k5, ← k2]
  exact k3

theorem eatWs_none (opts : SFlags) {b : Byte} {t : Str} (m : MStats) (h1 : isBlank (b :: t) = false)
    (h2 : isBreak (b :: t) = false) (h3 : startsWith (b :: t) b! '#' = false) (h4 : widthOf (b :: t) ≠ 0) :
    eatWs opts true ⟨b :: t, m⟩ = .ok ⟨b :: t, m⟩ := by
  have hc : cache opts 1 (b :: t) = .ok () := by simp [cache, h4]
  simp [eatWs, eatWsLoop, hc, h1, h2, h3, Out.ok_bind]

theorem reach_before {errs : Bool} {base : Str} (hv : validUtf8 base = true) {s : SS} (h : Reach errs opts base s) : Before s := by
  induction h with
  | start => exact ⟨hv, fun e he => (by cases he), fun k hk => (by cases hk)⟩
  | step h hd hs ih =>
    have := (closed_before.scanNextToken (P := True) (opts := opts) (.inl trivial) ih hd).of_ok hs
    rcases this with h | ⟨-, h⟩
    · exact h.1
    · obtain @⟨s, h, -, -, -, -⟩ := h
      exact h.put' _ (Nat.le_refl _) rfl rfl rfl rfl
  | @fail s s' e _ h hd hs ih =>
    have := closed_before.scanNextToken (P := True) (opts := opts) (.inl trivial) ih hd
    simp only [Holds, hs] at this
    exact ⟨ih.valid, this.out, this.key⟩
  | more _ h hd hs ih =>
    have := closed_before.scanNextToken (P := True) (opts := opts) (.inl trivial) ih hd
    simpa only [Holds, hs] using this
  | hand h ih => exact ih.next
  | offset n h ih => exact ⟨ih.valid, ih.out, ih.key⟩

theorem sub_ok {st : MStats} {f : Cur → Out ScanError α} {s s' : SS} {a : α}
    (h : Scan.sub st f s = (.ok a, s')) : f ⟨s.buf, st⟩ = .ok a ∧ s = s' := by
  unfold Scan.sub at h
  replace h := bind_ok h
  obtain ⟨_, t2, f2, f1⟩ := h
  obtain ⟨rfl, rfl⟩ := get_ok f2
  unfold SO.lift at f1
  generalize f _ = x at f1 ⊢
  cases x <;> simp at f1 ⊢
  exact f1

/-- A block scalar leaves no key. -/
theorem block_noKey {fold : Bool} {s s' : SS} (h : Scan.fetchBlockScalar opts fold s = (.ok (), s')) :
    s'.sc.key = none := by
  unfold Scan.fetchBlockScalar at h
  replace h := bind_ok h
  obtain ⟨_, s1, h1, h⟩ := h
  replace h := bind_ok h
  obtain ⟨_, s2, h2, h⟩ := h
  replace h := bind_ok h
  obtain ⟨_, s3, h3, h⟩ := h
  replace h := bind_ok h
  obtain ⟨r, s4, h4, h⟩ := h
  obtain ⟨rfl, rfl⟩ := get_ok h3
  obtain ⟨-, rfl⟩ := sub_ok h4
  have := removeKey_ok h1
  subst this
  have := upd_ok h2
  subst this
  replace h := bind_ok h
  obtain ⟨_, s5, h5, h⟩ := h
  have := commit_ok h5
  subst this
  have : s' = _ := (congrArg Prod.snd h).symm
  rw [this]
  rfl

/-- A `>` is a block scalar or an error. -/
theorem dispatch_fold {x : Context} {n : Nat} {s : Str} (h : startsWith s b! '>' = true) :
    Scan.dispatch x n s = .block true ∨ Scan.dispatch x n s = .unknown := by
  obtain ⟨t, rfl⟩ := startsWith_iff.1 h
  have hp : Scan.isPlainScalar x.isBlock (b! '>' :: t) = false := by
    simp [Scan.isPlainScalar]
  unfold Scan.dispatch
  cases hx : x.isBlock <;> simp [startsWith, startsMarker, hx] at hp ⊢
  simp [hp]

/-- After a verbatim tag that left a `>`, a step succeeds only with a block scalar. -/
theorem fold_step {s s' : SS} (hB : Before s) (hst : s.sc.state ≠ .Start) (hd : s.sc.state ≠ .Done)
    (hg : startsWith s.buf b! '>' = true) (hs : Scan.scanNextToken opts s = (.ok (), s')) :
    s'.sc.key = none ∧ ∀ e ∈ pushedBy s s', e.wrap.marker ≠ .Key := by
  obtain ⟨s1, h1, h2⟩ := step_cases hs hst
  obtain ⟨hB1, -, hst1, -, ⟨l, hl, hq⟩, -⟩ := prepare_ok hB h1
  have hbuf : s1.buf = s.buf := by
    unfold Scan.prepare at h1
    replace h1 := bind_ok h1
    obtain ⟨_, s2, e2, h1⟩ := h1
    have e : s2.buf = s.buf := by
      unfold Scan.eatWhitespace at e2
      replace e2 := bind_ok e2
      obtain ⟨c, t1, f1, e2⟩ := e2
      replace e2 := bind_ok e2
      obtain ⟨_, t2, f2, e2⟩ := e2
      replace e2 := bind_ok e2
      obtain ⟨_, t3, f3, e2⟩ := e2
      obtain ⟨rfl, rfl⟩ := get_ok f3
      have := upd_ok f2
      subst this
      replace f1 := sub_ok f1
      obtain ⟨f1, rfl⟩ := f1
      rw [commit_ok e2]
      obtain ⟨t, ht⟩ := startsWith_iff.1 hg
      rw [ht, eatWs_none _ _ (by rfl) (by rfl) (by rfl) (by simp [widthOf])] at f1
      simp only [Out.ok.injEq] at f1
      rw [← f1]
      simp only [SS.move]
      exact ht.symm
    have hB2 : Before s2 := ((closed_before.eatWhitespace (P := True) (opts := opts) (.inl trivial) hB).of_ok e2).1
    replace h1 := bind_ok h1
    obtain ⟨_, s3, e3, h1⟩ := h1
    replace h1 := bind_ok h1
    obtain ⟨_, s4, e4, h1⟩ := h1
    obtain ⟨rfl, rfl⟩ := get_ok e4
    replace h1 := bind_ok h1
    obtain ⟨_, s5, e5, h1⟩ := h1
    obtain ⟨hB3, hs3, -⟩ := (closed_before.expireKey (P := True) hB2).of_ok e3
    obtain ⟨hB4, hs4, -⟩ := (closed_before.unroll (P := True) _ hB3).of_ok e5
    obtain ⟨hB5, hs5, -⟩ := (closed_before.popZero (P := True) hB4).of_ok h1
    rw [hs5.buf, hs4.buf, hs3.buf, e]
  rcases h2 with ⟨h2, -⟩ | ⟨-, h2⟩
  · rw [hbuf, hst1] at h2
    rcases h2 with h2 | h2
    · rw [h2] at hg; cases hg
    · exact absurd h2 hd
  · have hdis := dispatch_fold (x := s1.sc.context) (n := s1.sc.stats.column) (s := s1.buf) (by rw [hbuf]; exact hg)
    rcases hdis with hdis | hdis
    · have hn := run_node hB1 (by rw [hdis]; rfl) h2
      rw [hdis] at h2
      refine ⟨block_noKey h2, ?_⟩
      obtain ⟨tok, ht, ho⟩ := hn.out
      unfold pushedBy
      rw [ho, hl, List.append_assoc, List.drop_left]
      intro e he
      rcases List.mem_append.1 he with he | he
      · exact (hq e he).2
      · simp only [List.mem_singleton] at he
        subst he
        rcases ht with h | h | h | h <;> rw [h] <;> simp
    · rw [hdis] at h2
      simp [Scan.run, SO.fail] at h2

/-- A step leaves the tokens of nodes it pushes after the saved key, or a `>` next. -/
theorem step_after {s s' : SS} (hB : Before s) (hd : s.sc.state ≠ .Done)
    (hs : Scan.scanNextToken opts s = (.ok (), s')) :
    (∃ l, s'.out = s.out ++ l) ∧
    ((∀ k, s'.sc.key = some k → ∀ e ∈ pushedBy s s', isNode e.wrap.marker = true → k.stats.read < e.readAt) ∨
      startsWith s'.buf b! '>' = true) := by
  suffices h : ∃ l, s'.out = s.out ++ l ∧ ((∀ k, s'.sc.key = some k → ∀ e ∈ l,
      isNode e.wrap.marker = true → k.stats.read < e.readAt) ∨ startsWith s'.buf b! '>' = true) by
    obtain ⟨l, h1, h2⟩ := h
    refine ⟨⟨l, h1⟩, ?_⟩
    unfold pushedBy
    rw [h1, List.drop_left]
    exact h2
  by_cases hst : s.sc.state = .Start
  · unfold Scan.scanNextToken at hs
    replace hs := bind_ok hs
    obtain ⟨_, s1, h1, hs⟩ := hs
    obtain ⟨rfl, rfl⟩ := get_ok h1
    simp only [hst, beq_self_eq_true, ↓reduceIte] at hs
    obtain ⟨l, h1, h2⟩ := Adds.of_eq (S := Quiet)
      ((Adds.upd _).bind fun _ => Adds.push fun r => by quiet) hs
    exact ⟨l, h1, .inl fun k _ e he hn => by rw [(h2 e he).1] at hn; cases hn⟩
  · obtain ⟨s1, h1, h2⟩ := step_cases hs hst
    obtain ⟨hB1, -, hst1, -, ⟨l, hl, hq⟩, -⟩ := prepare_ok hB h1
    have quiet_case : (∃ l, s'.out = s1.out ++ l ∧ ∀ e ∈ l, Spec.isNode e.wrap.marker = false) →
        ∃ l, s'.out = s.out ++ l ∧ ((∀ k, s'.sc.key = some k → ∀ e ∈ l,
          isNode e.wrap.marker = true → k.stats.read < e.readAt) ∨ startsWith s'.buf b! '>' = true) := by
      rintro ⟨l', e1, e2⟩
      refine ⟨l ++ l', by rw [e1, hl, List.append_assoc], .inl fun k _ e he hn => ?_⟩
      rcases List.mem_append.1 he with he | he
      · rw [(hq e he).1] at hn; cases hn
      · rw [e2 e he] at hn; cases hn
    rcases h2 with ⟨-, h2⟩ | ⟨-, h2⟩
    · refine quiet_case (Adds.of_eq ?_ h2)
      exact Adds.get.bind fun _ => (Adds.pure _).ite (((Adds.unroll (fun r => by rfl) _).bind fun _ =>
        Adds.removeKey.bind fun _ => (Adds.upd _).bind fun _ => Adds.push fun r => by rfl).ite (Adds.pure _))
    · by_cases hn : (Scan.dispatch s1.sc.context s1.sc.stats.column s1.buf).isNode = true
      · have hp := run_node hB1 hn h2
        obtain ⟨tok, ht, ho⟩ := hp.out
        refine ⟨l ++ [⟨tok, s'.sc.stats.read⟩], by rw [ho, hl, List.append_assoc], ?_⟩
        rcases hp.after with ha | ha
        · refine .inl fun k hk e he hn => ?_
          rcases List.mem_append.1 he with he | he
          · rw [(hq e he).1] at hn; cases hn
          · simp only [List.mem_singleton] at he
            subst he
            simp only
            rcases hp.key k hk with h | h
            · have := hB1.key k h
              omega
            · rw [h]; exact ha
        · exact .inr ha
      · refine quiet_case ?_
        have hn' : (Scan.dispatch s1.sc.context s1.sc.stats.column s1.buf).isNode = false := by simpa using hn
        have hds := Closed.dispatch_starts s1.sc.context s1.sc.stats.column s1.buf
        generalize Scan.dispatch s1.sc.context s1.sc.stats.column s1.buf = f at h2 hn' hds
        by_cases hv : f = .value
        · subst hv
          by_cases hk : ∃ k, s1.sc.key = some k ∧ k.possible.allowed = true
          · obtain ⟨k, hk, ha⟩ := hk
            obtain ⟨l, h3, h4, -⟩ := run_value_saved hk ha h2
            refine ⟨_, by rw [h4, List.append_assoc], ?_⟩
            intro e he
            simp only [List.mem_append, List.mem_cons, List.not_mem_nil, or_false] at he
            rcases he with he | rfl | rfl
            · rcases h3 with rfl | rfl
              · cases he
              · simp only [List.mem_singleton] at he
                subst he
                rfl
            · rfl
            · rfl
          · obtain ⟨l, h3, h4⟩ := run_value_bare (s := s1) (fun k hk' => by
              cases ha : k.possible.allowed with
              | true => exact absurd ⟨k, hk', ha⟩ hk
              | false => rfl) h2
            exact ⟨l, h3, fun e he => (h4 e he).1⟩
        · by_cases hx : f = .explicitKey
          · subst hx
            obtain ⟨l, h3, h4, -⟩ := run_explicitKey h2
            refine ⟨_, by rw [h3, List.append_assoc], ?_⟩
            intro e he
            rcases List.mem_append.1 he with he | he
            · exact (h4 e he).1
            · simp only [List.mem_singleton] at he
              subst he
              rfl
          · obtain ⟨l, h3, h4⟩ := run_quiet hn' hv hx (fun h => by subst h; exact hds) h2
            exact ⟨l, h3, fun e he => (h4 e he).1⟩

/-- What is known while a possible key is remembered. -/
theorem held_after {base : Str} (hv : validUtf8 base = true) {k : KeySave} {l : List TokenEntry} {s : SS}
    (h : Held opts base k l s) :
    Before s ∧ s.sc.key = some k ∧ s.sc.state ≠ .Start ∧ (∀ e ∈ l, e ∈ s.out) ∧
      ((∀ e ∈ l, isNode e.wrap.marker = true → k.stats.read < e.readAt) ∨ startsWith s.buf b! '>' = true) := by
  have step : ∀ {s s' : SS}, Before s → s.sc.state ≠ .Done → Scan.scanNextToken opts s = (.ok (), s') →
      Before s' ∧ s'.sc.state ≠ .Start := by
    intro s s' hB hd hs
    rcases (closed_before.scanNextToken (P := True) (opts := opts) (.inl trivial) hB hd).of_ok hs with
      ⟨h1, ⟨-, h2, -⟩ | ⟨h2, h3, -⟩⟩ | ⟨-, h1⟩
    · exact ⟨h1, by rw [h2]; simp⟩
    · exact ⟨h1, by rw [h3]; exact h2⟩
    · obtain @⟨s, h, -, -, -, -⟩ := h1
      exact ⟨h.put' _ (Nat.le_refl _) rfl rfl rfl rfl, by simp [SS.put]⟩
  induction h with
  | @found s s' h hd hn hs hk =>
    have hB := reach_before hv h
    obtain ⟨⟨l, hl⟩, h2⟩ := step_after hB hd hs
    refine ⟨(step hB hd hs).1, hk, (step hB hd hs).2, ?_, h2.imp (fun h => h k hk) id⟩
    intro e he
    exact List.mem_of_mem_drop he
  | @kept s s' l h hd hs hk ih =>
    obtain ⟨hB, hk0, hst, hin, ih⟩ := ih
    obtain ⟨⟨l', hl⟩, h2⟩ := step_after hB hd hs
    refine ⟨(step hB hd hs).1, hk, (step hB hd hs).2, ?_, ?_⟩
    · intro e he
      rcases List.mem_append.1 he with he | he
      · rw [hl]; exact List.mem_append_left _ (hin e he)
      · exact List.mem_of_mem_drop he
    · rcases ih with ih | ih
      · rcases h2 with h2 | h2
        · left
          intro e he
          rcases List.mem_append.1 he with he | he
          · exact ih e he
          · exact h2 k hk e he
        · exact .inr h2
      · have := (fold_step hB hst hd ih hs).1
        rw [hk] at this; cases this
  | offset n h ih => exact ⟨⟨ih.1.valid, ih.1.out, ih.1.key⟩, ih.2⟩

end Yary
