import Verif.Spec.Places
import Verif.Proof.Scan.Token
import Verif.Proof.Scan.Means
import Verif.Props.Position

/-! # Where block collections and keys may begin -/

namespace Yary

open Spec

variable {opts : SFlags} {α β : Type}

/-- Neither the flow level nor the permission for keys changes. -/
def Keep (m : Scan α) : Prop := ∀ s a s', m s = (.ok a, s') → s'.sc.simpleKeyAllowed = s.sc.simpleKeyAllowed ∧
  s'.sc.context.flow = s.sc.context.flow

namespace Keep

theorem bind {m : Scan α} {f : α → Scan β} (h : Keep m) (hf : ∀ a, Keep (f a)) : Keep (m >>= f) := by
  intro s b s' hs
  obtain ⟨a, s1, h1, h2⟩ := bind_ok hs
  obtain ⟨e1, e2⟩ := h s a s1 h1
  obtain ⟨e3, e4⟩ := hf a s1 b s' h2
  exact ⟨e3.trans e1, e4.trans e2⟩

theorem same {m : Scan α} (h : ∀ s, (m s).2.sc.simpleKeyAllowed = s.sc.simpleKeyAllowed ∧ (m s).2.sc.context.flow = s.sc.context.flow) : Keep m := by
  intro s a s' hs
  have := h s
  rwa [hs] at this

theorem pure (a : α) : Keep (Pure.pure a : Scan α) := same fun _ => ⟨rfl, rfl⟩
theorem fail (e : ScanError) : Keep (SO.fail e : Scan α) := same fun _ => ⟨rfl, rfl⟩
theorem get : Keep Scan.get := same fun _ => ⟨rfl, rfl⟩
theorem upd {f : Scanner → Scanner} (h : ∀ sc, (f sc).simpleKeyAllowed = sc.simpleKeyAllowed ∧ (f sc).context.flow = sc.context.flow := by
    intro sc; exact ⟨rfl, rfl⟩) : Keep (Scan.upd f) := same fun s => h s.sc
theorem takeKey : Keep Scan.takeKey := same fun _ => ⟨rfl, rfl⟩
theorem lift (x : Out ScanError α) : Keep (SO.lift x : Scan α) := same fun s => by cases x <;> exact ⟨rfl, rfl⟩
theorem sub (st : MStats) (f : Cur → Out ScanError α) : Keep (Scan.sub st f) := get.bind fun _ => lift _
theorem commit (buf : Str) (st : MStats) : Keep (Scan.commit buf st) :=
  same fun s => by unfold Scan.commit; split <;> exact ⟨rfl, rfl⟩
theorem advance (n : Nat) : Keep (Scan.advance n) :=
  same fun s => by unfold Scan.advance; split <;> exact ⟨rfl, rfl⟩
theorem enqueue (t : MaybeToken) (r : Nat) : Keep (Scan.enqueue t r) := same fun _ => ⟨rfl, rfl⟩
theorem push (t : Token) : Keep (Scan.push t) := same fun _ => ⟨rfl, rfl⟩
theorem ite {c : Prop} [Decidable c] {m m' : Scan α} (h : Keep m) (h' : Keep m') :
    Keep (if c then m else m') := by split <;> assumption
theorem removeKey : Keep Scan.removeSavedKey :=
  takeKey.bind fun k => by
    cases k with
    | none => exact pure _
    | some k => exact (fail _).ite (pure _)
theorem saveKey : Keep Scan.saveKey := get.bind fun _ => (removeKey.bind fun _ => upd).ite (pure _)
theorem unroll (c : Option Nat) : Keep (Scan.unrollIndent c) := same fun s => by
  refine ⟨rfl, ?_⟩
  simp only [Scan.unrollIndent, SO.modify, Context.indentDecrement]
  split <;> rfl
theorem rollIndent {r l c : Nat} {map : Bool} : Keep (Scan.rollIndent r l c map) := by
  intro s a s' hs
  unfold Scan.rollIndent at hs
  obtain ⟨_, s1, h1, hs⟩ := bind_ok hs
  obtain ⟨rfl, rfl⟩ := get_ok h1
  simp only at hs
  have hz : (Scan.flagZero (s.sc.context.indentIncrement c l map)).flow = s.sc.context.flow := rfl
  repeat' split at hs
  all_goals (have : s' = _ := (congrArg Prod.snd hs).symm; rw [this]; exact ⟨rfl, by first | rfl | exact hz⟩)
theorem rollHere {map : Bool} : Keep (Scan.rollHere map) := get.bind fun _ => rollIndent
theorem popZero : Keep Scan.popZeroIndent := same fun s => by
  unfold Scan.popZeroIndent SO.modify
  simp only
  split
  · exact ⟨rfl, rfl⟩
  · split <;> exact ⟨rfl, rfl⟩
theorem expire : Keep Scan.expireKey := get.bind fun s => by
    cases s.sc.key with
    | none => exact pure _
    | some k => exact ((fail _).ite upd).ite (pure _)
theorem check : Keep Scan.explicitKeyCheck := get.bind fun _ => ((fail _).ite rollHere).ite (pure _)
theorem valueCheck : Keep Scan.valueCheck := get.bind fun _ => ((fail _).ite rollHere).ite (pure _)
theorem entryCheck : Keep Scan.blockEntryCheck := get.bind fun _ => rollHere.ite (fail _)
theorem touch : Keep (Scan.upd fun sc => { sc with context := Scan.touchZero sc.stats sc.context }) := upd fun sc => by
  refine ⟨rfl, ?_⟩
  simp only [Scan.touchZero]
  split
  · rfl
  · split <;> rfl

end Keep

/-- Before a token: white space, which may allow keys. -/
theorem prepare_place {s s1 : SS} (h : Scan.prepare opts s = (.ok (), s1)) :
    ∃ n, Skips true s.buf n s1.buf ∧ (s1.sc.simpleKeyAllowed = true ↔ s.sc.simpleKeyAllowed = true ∨ n ≠ 0) ∧
      s1.sc.context.flow = s.sc.context.flow := by
  unfold Scan.prepare at h
  obtain ⟨_, s2, h2, h⟩ := bind_ok h
  obtain ⟨n, p, g1, -, -, -, -, g2⟩ := C14_line_change h2
  obtain ⟨c, -, e2⟩ := eatWhitespace_ok h2
  have hf : s2.sc.context.flow = s.sc.context.flow := by rw [e2]
  obtain ⟨_, s3, h3, h⟩ := bind_ok h
  have k3 := Keep.expire _ _ _ h3
  have b3 : s3.buf = s2.buf := by
    unfold Scan.expireKey at h3
    obtain ⟨_, t, g, h3⟩ := bind_ok h3
    obtain ⟨rfl, rfl⟩ := get_ok g
    cases hk : s2.sc.key with
    | none => rw [hk] at h3; rw [show s3 = _ from (congrArg Prod.snd h3).symm]; rfl
    | some k =>
      simp only [hk] at h3
      repeat' split at h3
      all_goals first
        | (simp [SO.fail] at h3; done)
        | (rw [show s3 = _ from (congrArg Prod.snd h3).symm]; rfl)
  obtain ⟨_, s4, h4, h⟩ := bind_ok h
  obtain ⟨rfl, rfl⟩ := get_ok h4
  obtain ⟨_, s5, h5, h⟩ := bind_ok h
  have k5 := Keep.unroll _ _ _ _ h5
  have b5 : s5.buf = s3.buf := by rw [show s5 = _ from (congrArg Prod.snd h5).symm]; rfl
  have k6 := Keep.popZero _ _ _ h
  have b6 : s1.buf = s5.buf := by
    rw [show s1 = _ from (congrArg Prod.snd h).symm]
    simp only [Scan.popZeroIndent, SO.modify]
    split
    · rfl
    · split <;> rfl
  refine ⟨n, by rw [b6, b5, b3]; exact g1, ?_, by rw [k6.2, k5.2, k3.2, hf]⟩
  rw [k6.1, k5.1, k3.1]
  exact g2

/-- The token pushed last satisfies `P`, the others `S`. -/
def Puts (S : TokenEntry → Prop) (P : MaybeToken → Prop) (m : Scan α) : Prop := ∀ s a s', m s = (.ok a, s') →
  ∃ l e, s'.out = s.out ++ l ++ [e] ∧ (∀ x ∈ l, S x) ∧ P e.wrap

namespace Puts

variable {S : TokenEntry → Prop} {P : MaybeToken → Prop}

theorem bind {m : Scan α} {f : α → Scan β} (h : Adds S m) (hf : ∀ a, Puts S P (f a)) : Puts S P (m >>= f) := by
  intro s b s' hs
  obtain ⟨a, s1, h1, h2⟩ := bind_ok hs
  obtain ⟨l1, e1, g1⟩ := h.of_eq h1
  obtain ⟨l, e, e2, g2, g3⟩ := hf a s1 b s' h2
  refine ⟨l1 ++ l, e, by rw [e2, e1]; simp, fun x hx => ?_, g3⟩
  rcases List.mem_append.1 hx with h | h
  · exact g1 x h
  · exact g2 x h

theorem before {m : Scan α} {f : α → Scan β} (h : Puts S P m) (hf : ∀ a, Adds (fun _ => False) (f a)) : Puts S P (m >>= f) := by
  intro s b s' hs
  obtain ⟨a, s1, h1, h2⟩ := bind_ok hs
  obtain ⟨l, e, e2, g2, g3⟩ := h s a s1 h1
  exact ⟨l, e, by rw [Adds.none (hf a) h2, e2], g2, g3⟩

theorem sub {st : MStats} {g : Cur → Out ScanError α} {f : α → Scan β} {s s' : SS} {b : β}
    (h : (Scan.sub st g >>= f) s = (.ok b, s')) (hf : ∀ a, g ⟨s.buf, st⟩ = .ok a → Puts S P (f a)) :
    ∃ l e, s'.out = s.out ++ l ++ [e] ∧ (∀ x ∈ l, S x) ∧ P e.wrap := by
  obtain ⟨a, s1, h1, h2⟩ := bind_ok h
  obtain ⟨e1, rfl⟩ := sub_ok h1
  exact hf a e1 _ _ _ h2

theorem enqueue {t : MaybeToken} {r : Nat} (h : P t) : Puts S P (Scan.enqueue t r) := by
  intro s a s' hs
  rw [show s' = _ from (congrArg Prod.snd hs).symm]
  exact ⟨[], ⟨t, r⟩, by rw [List.append_nil]; rfl, by simp, h⟩

theorem push {t : Token} (h : P (.Token t)) : Puts S P (Scan.push t) :=
  bind Adds.get fun _ => enqueue h

theorem fail {e : ScanError} : Puts S P (SO.fail e : Scan α) := fun s a s' h => by simp [SO.fail] at h

theorem finish {tok : MaybeToken} {c : Cur} (h : P tok) : Puts S P (Scan.finish tok c) :=
  bind Adds.saveKey fun _ => bind (Adds.upd _) fun _ => bind Adds.get fun _ => bind (Adds.commit _ _) fun _ => bind Adds.get fun _ =>
    enqueue h

end Puts

/-- The start or end of a block collection, or, if `key`, a key. -/
def Structure (key : Bool) (e : TokenEntry) : Prop := e.wrap.marker = .BlockEnd ∨ e.wrap.marker = .BlockMappingStart ∨
  e.wrap.marker = .BlockSequenceStart ∨ key = true ∧ e.wrap.marker = .Key

theorem structure_end (key : Bool) (r : Nat) : Structure key ⟨.Token .BlockEnd, r⟩ := .inl rfl
theorem structure_start (key map : Bool) (r : Nat) : Structure key ⟨.Token (if map then .BlockMappingStart else .BlockSequenceStart), r⟩ := by
  cases map
  · exact .inr (.inr (.inl rfl))
  · exact .inr (.inl rfl)

/-- None of the tokens after which a block collection may begin. -/
def Inert (t : MaybeToken) : Prop := t.marker ≠ .BlockEntry ∧ t.marker ≠ .Key ∧ t.marker ≠ .Value ∧ t.marker ≠ .StreamStart ∧
  t.marker ≠ .FlowEntry ∧ isBlockScalar t = false

/-- The last token, by what is fetched. -/
def LastOf : Scan.Fetch → MaybeToken → Prop
  | .blockEntry, t => t.marker = .BlockEntry
  | .explicitKey, t => t.marker = .Key
  | .value, t => t.marker = .Value
  | .flowEntry, t => t.marker = .FlowEntry
  | .block _, t => isBlockScalar t = true ∧ t.marker = .Scalar
  | _, t => Inert t

theorem inert_flow {single : Bool} {q : Byte} {t : Str} {m : MStats} (hb : isBreak (q :: t) = false) {tok : MaybeToken} {c : Cur}
    (h : scanFlow opts single ⟨q :: t, m⟩ = .ok (tok, c)) : Inert tok := by
  rcases scanFlow_style hb h with ⟨-, v, rfl, -⟩ | ⟨hl, l, rfl⟩
  · cases single <;> simp [Inert, MaybeToken.marker, Marker.ofToken, isBlockScalar, flowStyle]
  · unfold scanFlow at h
    rw [if_pos hl] at h
    obtain ⟨⟨l', c'⟩, h1, h⟩ := Out.bind_eq_ok.1 h
    simp only [Out.ok.injEq, Prod.mk.injEq, MaybeToken.Deferred.injEq] at h
    obtain ⟨rfl, rfl⟩ := h
    unfold scanFlowLazy at h1
    obtain ⟨_, -, h1⟩ := Out.bind_eq_ok.1 h1
    obtain ⟨_, -, h1⟩ := Out.bind_eq_ok.1 h1
    obtain ⟨_, -, h1⟩ := Out.bind_eq_ok.1 h1
    obtain ⟨_, -, h1⟩ := Out.bind_eq_ok.1 h1
    simp only [Out.ok.injEq, Prod.mk.injEq] at h1
    rw [← h1.1]
    simp [Inert, MaybeToken.marker, isBlockScalar]

theorem inert_plain {indent : Nat} {block : Bool} {c0 c : Cur} {tok : MaybeToken} (hst : PlainStart block c0)
    (h : scanPlain opts indent block c0 = .ok (tok, c)) : Inert tok := by
  rcases scanPlain_style hst h with ⟨-, v, rfl, -⟩ | ⟨hl, l, rfl⟩
  · simp [Inert, MaybeToken.marker, Marker.ofToken, isBlockScalar]
  · unfold scanPlain at h
    rw [if_pos hl] at h
    obtain ⟨⟨l', c'⟩, h1, h⟩ := Out.bind_eq_ok.1 h
    simp only [Out.ok.injEq, Prod.mk.injEq, MaybeToken.Deferred.injEq] at h
    obtain ⟨rfl, rfl⟩ := h
    rw [scanPlainLazy_eq] at h1
    obtain ⟨_, -, h1⟩ := Out.bind_eq_ok.1 h1
    obtain ⟨_, -, h1⟩ := Out.bind_eq_ok.1 h1
    obtain ⟨_, -, h1⟩ := Out.bind_eq_ok.1 h1
    simp only [Out.ok.injEq, Prod.mk.injEq] at h1
    rw [← h1.1]
    simp [Inert, MaybeToken.marker, isBlockScalar]

theorem block_scalar {base : Nat} {fold : Bool} {c0 c : Cur} {tok : MaybeToken} (hne : c0.buf ≠ []) (hnb : isBreak c0.buf = false)
    (h : scanBlock opts base fold c0 = .ok (tok, c)) : isBlockScalar tok = true ∧ tok.marker = .Scalar := by
  rcases scanBlock_style hne hnb h with ⟨-, v, rfl, -⟩ | ⟨hl, l, rfl⟩
  · cases fold <;> exact ⟨rfl, rfl⟩
  · unfold scanBlock at h
    rw [if_pos hl] at h
    obtain ⟨⟨l', c'⟩, h1, h⟩ := Out.bind_eq_ok.1 h
    simp only [Out.ok.injEq, Prod.mk.injEq, MaybeToken.Deferred.injEq] at h
    obtain ⟨rfl, rfl⟩ := h
    unfold scanBlockLazy at h1
    obtain ⟨_, -, h1⟩ := Out.bind_eq_ok.1 h1
    obtain ⟨_, -, h1⟩ := Out.bind_eq_ok.1 h1
    obtain ⟨_, -, h1⟩ := Out.bind_eq_ok.1 h1
    obtain ⟨_, -, h1⟩ := Out.bind_eq_ok.1 h1
    simp only [Out.ok.injEq, Prod.mk.injEq] at h1
    rw [← h1.1]
    exact ⟨rfl, rfl⟩

/-- A token that is none of them. -/
macro "inert" : tactic => `(tactic| simp [Inert, MaybeToken.marker, Marker.ofToken, isBlockScalar])

/-- The tokens a fetch pushes. -/
theorem run_puts {f : Scan.Fetch} {s s' : SS} (hd : Closed.Starts s.sc.context s.buf f)
    (hp : f = .plain → PlainStart s.sc.context.isBlock ⟨s.buf, s.sc.stats⟩) (hs : Scan.run opts f s = (.ok (), s')) :
    ∃ l e, s'.out = s.out ++ l ++ [e] ∧ (∀ x ∈ l, Structure (f == .value) x) ∧ LastOf f e.wrap := by
  cases f with
  | directive =>
    obtain ⟨t, ht⟩ := hd
    refine Puts.sub hs fun ⟨tok, c⟩ h => ?_
    rw [ht] at h
    obtain ⟨-, -, ⟨a, b, hk⟩ | ⟨a, b, hk⟩⟩ := (directiveToken_sat (P := True) (.inl trivial) (.inl trivial)).of_ok h <;>
    · simp only at hk
      subst hk
      exact Puts.bind (Adds.unroll (structure_end _) _) fun _ => Puts.bind Adds.removeKey fun _ => Puts.bind (Adds.upd _) fun _ =>
        Puts.bind Adds.get fun _ => Puts.bind (Adds.commit _ _) fun _ => Puts.push (by simp only [LastOf]; inert)
  | marker start =>
    exact (Puts.bind (Adds.unroll (structure_end _) _) fun _ => Puts.bind Adds.removeKey fun _ => Puts.bind (Adds.upd _) fun _ =>
      Puts.bind (Adds.advance _) fun _ => Puts.push (by simp only [LastOf]; cases start <;> inert)) _ _ _ hs
  | flowStart map =>
    exact (Puts.bind (Adds.upd _) fun _ => Puts.bind (Adds.advance _) fun _ => Puts.before (Puts.push (by simp only [LastOf]; cases map <;> inert)) fun _ =>
      Adds.saveKey.bind fun _ => Adds.upd _) _ _ _ hs
  | flowEnd map =>
    exact (Puts.bind Adds.removeKey fun _ => Puts.bind Adds.get fun _ => Puts.bind (Adds.lift _) fun _ => Puts.bind (Adds.upd _) fun _ =>
      Puts.bind (Adds.advance _) fun _ => Puts.push (by simp only [LastOf]; cases map <;> inert)) _ _ _ hs
  | flowEntry =>
    exact (Puts.bind Adds.removeKey fun _ => Puts.bind (Adds.upd _) fun _ => Puts.bind (Adds.advance _) fun _ => Puts.push (P := LastOf .flowEntry) (t := .FlowEntry) rfl) _ _ _ hs
  | blockEntry =>
    exact (Puts.bind (Adds.get.bind fun _ => (Adds.rollHere (structure_start _ _)).ite (Adds.fail _)) fun _ => Puts.bind (Adds.upd _) fun _ =>
      Puts.bind Adds.removeKey fun _ => Puts.bind (Adds.upd _) fun _ => Puts.bind (Adds.advance _) fun _ => Puts.push (P := LastOf .blockEntry) (t := .BlockEntry) rfl) _ _ _ hs
  | explicitKey =>
    exact (Puts.bind Adds.get fun _ => Puts.bind (Adds.get.bind fun _ =>
      ((Adds.fail _).ite (Adds.rollHere (structure_start _ _))).ite (Adds.pure _)) fun _ =>
      Puts.bind Adds.removeKey fun _ => Puts.bind (Adds.upd _) fun _ => Puts.bind (Adds.advance _) fun _ => Puts.push (P := LastOf .explicitKey) (t := .Key) rfl) _ _ _ hs
  | value =>
    have bare : Adds (Structure (Scan.Fetch.value == .value)) Scan.valueBare :=
      Adds.get.bind fun _ => (Adds.get.bind fun _ => ((Adds.fail _).ite (Adds.rollHere (structure_start _ _))).ite
      (Adds.pure _)).bind fun _ => Adds.upd _
    have saved (k : KeySave) : Adds (Structure (Scan.Fetch.value == .value)) (Scan.valueSaved k) :=
      (Adds.rollIndent (structure_start _ _ _)).bind fun _ => (Adds.enqueue (.inr (.inr (.inr ⟨rfl, rfl⟩)))).bind fun _ => Adds.upd _
    refine (Puts.bind (Adds.get.bind fun _ => (Adds.upd _).bind fun _ => Adds.pure _) fun k => Puts.bind ?_ fun _ =>
      Puts.bind (Adds.advance _) fun _ => Puts.push (P := LastOf .value) (t := .Value) rfl) _ _ _ hs
    cases k with
    | none => exact bare
    | some k => exact (saved k).ite bare
  | anchor =>
    simp only [Scan.run, Scan.fetchAnchor] at hs
    obtain ⟨_, s1, h1, hs⟩ := bind_ok hs
    obtain ⟨rfl, rfl⟩ := get_ok h1
    refine Puts.sub hs fun ⟨tok, c⟩ h => Puts.finish ?_
    have : ∃ b t, NoBrk b ∧ s.buf = b :: t := by
      obtain ⟨t, ht | ht⟩ := hd
      · exact ⟨_, t, by decide, ht⟩
      · exact ⟨_, t, by decide, ht⟩
    obtain ⟨b, t, hb, ht⟩ := this
    generalize startsWith s.buf b! '*' = al at h
    rw [ht] at h
    obtain ⟨-, name, -, -, -, -, hk⟩ := (scanAnchor_sat (P := True) (.inl trivial) hb).of_ok h
    simp only at hk
    subst hk
    simp only [LastOf]
    cases al <;> inert
  | tag =>
    obtain ⟨t, ht⟩ := hd
    simp only [Scan.run, Scan.fetchTag] at hs
    refine Puts.sub hs fun ⟨tok, c⟩ h => Puts.finish ?_
    rw [ht] at h
    obtain ⟨-, -, -, a, b, hk⟩ := (scanNodeTag_sat (P := True) (.inl trivial) (.inl trivial)).of_ok h
    simp only at hk
    subst hk
    simp only [LastOf]
    inert
  | block fold =>
    obtain ⟨⟨t, ht⟩, -⟩ := hd
    simp only [Scan.run, Scan.fetchBlockScalar] at hs
    obtain ⟨_, s1, h1, hs⟩ := bind_ok hs
    obtain ⟨_, s2, h2, hs⟩ := bind_ok hs
    obtain ⟨_, s3, h3, hs⟩ := bind_ok hs
    obtain ⟨rfl, rfl⟩ := get_ok h3
    have e1 := removeKey_ok h1
    have e2 := upd_ok h2
    have hb : s2.buf = s.buf := by rw [e2, e1]; rfl
    have ho : s2.out = s.out := by rw [e2, e1]; rfl
    rw [← ho]
    refine Puts.sub hs fun ⟨tok, c⟩ h => Puts.bind (Adds.commit _ _) fun _ => Puts.enqueue ?_
    refine block_scalar ?_ ?_ h
    · simp only [hb, ht]; simp
    · simp only [hb, ht]; exact NoBrk.isBreak (by cases fold <;> decide)
  | quoted =>
    simp only [Scan.run, Scan.fetchFlowScalar] at hs
    obtain ⟨_, s1, h1, hs⟩ := bind_ok hs
    obtain ⟨rfl, rfl⟩ := get_ok h1
    refine Puts.sub hs fun ⟨tok, c⟩ h => Puts.finish ?_
    have : ∃ b t, NoBrk b ∧ s.buf = b :: t := by
      obtain ⟨t, ht | ht⟩ := hd
      · exact ⟨_, t, by decide, ht⟩
      · exact ⟨_, t, by decide, ht⟩
    obtain ⟨b, t, hb, ht⟩ := this
    generalize startsWith s.buf 0x27 = al at h
    rw [ht] at h
    exact inert_flow hb.isBreak h
  | plain =>
    simp only [Scan.run, Scan.fetchPlainScalar] at hs
    obtain ⟨_, s1, h1, hs⟩ := bind_ok hs
    obtain ⟨rfl, rfl⟩ := get_ok h1
    refine Puts.sub hs fun ⟨tok, c⟩ h => Puts.bind Adds.saveKey fun _ => Puts.bind (Adds.upd _) fun _ => Puts.bind (Adds.commit _ _) fun _ =>
      Puts.enqueue ?_
    exact inert_plain (hp rfl) h
  | unknown => simp [Scan.run, SO.fail] at hs

/-- The permission for keys is set. -/
def Sets (b : Bool) (m : Scan α) : Prop := ∀ s a s', m s = (.ok a, s') → s'.sc.simpleKeyAllowed = b

namespace Sets

variable {b : Bool}

theorem left {m : Scan α} {f : α → Scan β} (h : Sets b m) (hf : ∀ a, Keep (f a)) : Sets b (m >>= f) := by
  intro s _ s' hs
  obtain ⟨a, s1, h1, h2⟩ := bind_ok hs
  rw [(hf a _ _ _ h2).1]
  exact h _ _ _ h1

theorem right {m : Scan α} {f : α → Scan β} (hf : ∀ a, Sets b (f a)) : Sets b (m >>= f) := by
  intro s _ s' hs
  obtain ⟨a, s1, h1, h2⟩ := bind_ok hs
  exact hf a _ _ _ h2

theorem upd {f : Scanner → Scanner} (h : ∀ sc, (f sc).simpleKeyAllowed = b := by intro sc; rfl) : Sets b (Scan.upd f) := by
  intro s a s' hs
  rw [upd_ok hs]
  exact h _

theorem finish {tok : MaybeToken} {c : Cur} : Sets false (Scan.finish tok c) :=
  right fun _ => (upd).left fun _ => Keep.get.bind fun _ => (Keep.commit _ _).bind fun _ => Keep.get.bind fun _ => Keep.enqueue _ _

end Sets

/-- What a fetch leaves of the permission for keys. -/
theorem run_allows {f : Scan.Fetch} {s s' : SS} (hs : Scan.run opts f s = (.ok (), s')) (hf : s'.sc.context.flow = 0) :
    match f with
    | .blockEntry => s'.sc.simpleKeyAllowed = true
    | .explicitKey => s'.sc.simpleKeyAllowed = true
    | .flowEntry => s'.sc.simpleKeyAllowed = true
    | .block _ => s'.sc.simpleKeyAllowed = true
    | .value => s'.sc.simpleKeyAllowed = true ↔ ∀ k, s.sc.key = some k → k.possible.allowed = false
    | _ => s'.sc.simpleKeyAllowed = false := by
  cases f with
  | directive =>
    exact (Sets.right fun _ => Sets.right fun _ => Sets.right fun _ => (Sets.upd).left fun _ =>
      Keep.get.bind fun _ => (Keep.commit _ _).bind fun _ => Keep.push _) _ _ _ hs
  | marker start =>
    exact (Sets.right fun _ => Sets.right fun _ => (Sets.upd).left fun _ => (Keep.advance _).bind fun _ => Keep.push _) _ _ _ hs
  | flowStart map =>
    exfalso
    simp only [Scan.run, Scan.fetchFlowStart] at hs
    obtain ⟨_, s1, h1, hs⟩ := bind_ok hs
    have e1 := upd_ok h1
    obtain ⟨_, s2, h2, hs⟩ := bind_ok hs
    obtain ⟨_, s3, h3, hs⟩ := bind_ok hs
    obtain ⟨_, s4, h4, hs⟩ := bind_ok hs
    have e5 := upd_ok hs
    rw [e5] at hf
    simp only [(Keep.saveKey _ _ _ h4).2, (Keep.push _ _ _ _ h3).2, (Keep.advance _ _ _ _ h2).2, e1, Context.flowIncrement] at hf
    omega
  | flowEnd map =>
    exact (Sets.right fun _ => Sets.right fun _ => Sets.right fun _ => (Sets.upd).left fun _ => (Keep.advance _).bind fun _ => Keep.push _) _ _ _ hs
  | flowEntry => exact (Sets.right fun _ => (Sets.upd).left fun _ => (Keep.advance _).bind fun _ => Keep.push _) _ _ _ hs
  | blockEntry =>
    exact (Sets.right fun _ => Sets.right fun _ => Sets.right fun _ => (Sets.upd).left fun _ => (Keep.advance _).bind fun _ => Keep.push _) _ _ _ hs
  | explicitKey =>
    simp only [Scan.run, Scan.fetchExplicitKey] at hs
    obtain ⟨_, s1, h1, hs⟩ := bind_ok hs
    obtain ⟨rfl, rfl⟩ := get_ok h1
    obtain ⟨_, s2, h2, hs⟩ := bind_ok hs
    obtain ⟨_, s3, h3, hs⟩ := bind_ok hs
    obtain ⟨_, s4, h4, hs⟩ := bind_ok hs
    have k : Keep (Scan.advance 1 >>= fun _ => Scan.push .Key) := (Keep.advance _).bind fun _ => Keep.push _
    have e4 := upd_ok h4
    have f4 : s4.sc.context.flow = s3.sc.context.flow := by rw [e4]
    have : s.sc.context.flow = 0 := by
      rw [(k _ _ _ hs).2, f4, (Keep.removeKey _ _ _ h3).2, (Keep.check _ _ _ h2).2] at hf
      exact hf
    simp only [(k _ _ _ hs).1, e4, Context.isBlock, this, beq_self_eq_true]
  | value =>
    simp only [Scan.run, Scan.fetchValue] at hs
    obtain ⟨k, s1, h1, hs⟩ := bind_ok hs
    obtain ⟨rfl, rfl⟩ := takeKey_ok h1
    obtain ⟨_, s2, h2, hs⟩ := bind_ok hs
    have kk : Keep (Scan.advance 1 >>= fun _ => Scan.push .Value) := (Keep.advance _).bind fun _ => Keep.push _
    have bare : Scan.valueBare (s.setKey none) = (.ok (), s2) → s2.sc.simpleKeyAllowed = true := by
      intro h
      unfold Scan.valueBare at h
      obtain ⟨_, s3, h3, h⟩ := bind_ok h
      obtain ⟨rfl, rfl⟩ := get_ok h3
      obtain ⟨_, s4, h4, h⟩ := bind_ok h
      have e := upd_ok h
      have e' : s2.sc.context.flow = s4.sc.context.flow := by rw [e]
      rw [(kk _ _ _ hs).2, e', (Keep.valueCheck _ _ _ h4).2] at hf
      rw [e]
      simp only [Context.isBlock, hf, beq_self_eq_true]
    simp only [(kk _ _ _ hs).1]
    cases hk : s.sc.key with
    | none =>
      rw [hk] at h2
      simp [bare h2]
    | some k =>
      rw [hk] at h2
      simp only [Scan.valueKey] at h2
      by_cases ha : k.possible.allowed = true
      · rw [if_pos ha] at h2
        have : s2.sc.simpleKeyAllowed = false :=
          (Sets.right fun _ => Sets.right fun _ => Sets.upd : Sets false (Scan.valueSaved k)) _ _ _ h2
        simp [this, ha]
      · rw [if_neg ha] at h2
        simp [bare h2, ha]
  | anchor => exact (Sets.right fun _ => Sets.right fun _ => Sets.finish) _ _ _ hs
  | tag => exact (Sets.right fun _ => Sets.finish) _ _ _ hs
  | block fold =>
    exact (Sets.right fun _ => (Sets.upd).left fun _ => Keep.get.bind fun _ => (Keep.sub _ _).bind fun _ => (Keep.commit _ _).bind fun _ =>
      Keep.enqueue _ _) _ _ _ hs
  | quoted => exact (Sets.right fun _ => Sets.right fun _ => Sets.finish) _ _ _ hs
  | plain =>
    exact (Sets.right fun _ => Sets.right fun _ => Sets.right fun _ => (Sets.upd).left fun _ => (Keep.commit _ _).bind fun _ =>
      Keep.enqueue _ _) _ _ _ hs
  | unknown => simp [Scan.run, SO.fail] at hs

end Yary
