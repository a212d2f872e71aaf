import Verif.Proof.Scan.FaultQuoted
import Verif.Proof.Scan.FaultBlock
import Verif.Proof.Scan.Signs
import Verif.Proof.Scan.Candidate

/-! # Scan errors name what is wrong: the steps -/

namespace Yary

open Spec

variable {opts : SFlags} {α β : Type}

/-! ### Plain scalars -/

theorem truncEnd_faults {s : Str} {n : Nat} {F : ScanError → Prop} : Faults opts (truncEnd s n) (fun _ => True) F := by
  unfold truncEnd
  split
  · exact .ok trivial
  · exact .panic

theorem plainPush_faults {st : PlainSt} {F : ScanError → Prop} : Faults opts st.push (fun _ => True) F :=
  adv_faults.bind fun _ _ => .ok trivial

theorem plainNoBorrow_faults {st : PlainSt} {base : Str} {F : ScanError → Prop} : Faults opts (st.noBorrow base) (fun _ => True) F := by
  unfold PlainSt.noBorrow
  split
  · exact slice_faults.bind fun _ _ => .ok trivial
  · exact .ok trivial

theorem plainWord_faults {block : Bool} {F : ScanError → Prop} : ∀ {fuel : Nat} {st : PlainSt}, Faults opts (plainWord opts block fuel st) (fun _ => True) F := by
  intro fuel
  induction fuel with
  | zero => intro _; exact .diverge
  | succ fuel ih =>
    intro st
    rw [plainWord]
    split
    · exact .ok trivial
    · refine (cache_faults _ _).bind fun _ _ => ?_
      split
      · exact .ok trivial
      · exact plainPush_faults.bind fun _ _ => ih

theorem plainSpace_faults {base : Str} {F : ScanError → Prop} : ∀ {fuel : Nat} {st : PlainSt}, Faults opts (plainSpace opts base fuel st) (fun _ => True) F := by
  intro fuel
  induction fuel with
  | zero => intro _; exact .diverge
  | succ fuel ih =>
    intro st
    rw [plainSpace]
    refine (cache_faults _ _).bind fun _ _ => ?_
    repeat' split
    · exact plainPush_faults.bind fun _ _ => ih
    · exact plainNoBorrow_faults.bind fun _ _ => line_faults.bind fun _ _ => ih
    · exact .ok trivial

theorem plainJoin_faults {st : PlainSt} {F : ScanError → Prop} : Faults opts (plainJoin st) (fun _ => True) F := by
  unfold plainJoin
  split
  · exact .ok trivial
  · exact truncEnd_faults.bind fun _ _ => .ok trivial
  · exact truncEnd_faults.bind fun _ _ => .ok trivial

theorem plainLoop_faults {base : Str} {indent : Nat} {block : Bool} {F : ScanError → Prop} : ∀ {fuel : Nat} {st : PlainSt},
    Faults opts (plainLoop opts base indent block fuel st) (fun _ => True) F := by
  intro fuel
  induction fuel with
  | zero => intro _; exact .diverge
  | succ fuel ih =>
    intro st
    rw [plainLoop]
    refine (cache_faults _ _).bind fun _ _ => ?_
    repeat' split
    iterate 4 exact .ok trivial
    exact plainWord_faults.bind fun _ _ => plainSpace_faults.bind fun _ _ => plainJoin_faults.bind fun _ _ => ih

theorem plainLazyWord_faults {block : Bool} {F : ScanError → Prop} : ∀ {fuel : Nat} {st : PlainLazySt}, Faults opts (plainLazyWord opts block fuel st) (fun _ => True) F := by
  intro fuel
  induction fuel with
  | zero => intro _; exact .diverge
  | succ fuel ih =>
    intro st
    rw [plainLazyWord]
    split
    · exact .ok trivial
    · refine (cache_faults _ _).bind fun _ _ => ?_
      split
      · exact .ok trivial
      · exact adv_faults.bind fun _ _ => ih

theorem plainLazySpace_faults {F : ScanError → Prop} : ∀ {fuel : Nat} {st : PlainLazySt}, Faults opts (plainLazySpace opts fuel st) (fun _ => True) F := by
  intro fuel
  induction fuel with
  | zero => intro _; exact .diverge
  | succ fuel ih =>
    intro st
    rw [plainLazySpace]
    refine (cache_faults _ _).bind fun _ _ => ?_
    repeat' split
    · exact adv_faults.bind fun _ _ => ih
    · exact line_faults.bind fun _ _ => ih
    · exact .ok trivial

theorem plainLazyLoop_faults {base : Str} {indent : Nat} {block : Bool} {F : ScanError → Prop} : ∀ {fuel : Nat} {st : PlainLazySt},
    Faults opts (plainLazyLoop opts base indent block fuel st) (fun _ => True) F := by
  intro fuel
  induction fuel with
  | zero => intro _; exact .diverge
  | succ fuel ih =>
    intro st
    rw [plainLazyLoop]
    refine (cache_faults _ _).bind fun _ _ => ?_
    split
    · exact .ok trivial
    split
    · exact .ok trivial
    split
    · exact .ok trivial
    split
    · exact .ok trivial
    refine plainLazyWord_faults.bind ?_
    rintro ⟨d, st'⟩ -
    simp only
    split
    · exact .ok trivial
    · exact plainLazySpace_faults.bind fun _ _ => ih

/-- Plain scalars have no faults of their own, where they may begin. -/
theorem scanPlain_faults {indent : Nat} {block : Bool} {c : Cur} {F : ScanError → Prop} (h : plainBadStart block c.buf = false) :
    Faults opts (scanPlain opts indent block c) (fun _ => True) F := by
  unfold scanPlain
  split
  · refine Faults.bind (Q := fun _ => True) ?_ fun _ _ => .ok trivial
    rw [scanPlainLazy_eq]
    exact plainLazyLoop_faults.bind fun _ _ => slice_faults.bind fun _ _ => skip_faults.bind fun _ _ => .ok trivial
  · refine Faults.bind (Q := fun _ => True) ?_ fun _ _ => .ok trivial
    rw [scanPlainEager_eq]
    refine (cache_faults _ _).bind fun _ _ => ?_
    rw [if_neg (by simp [h])]
    refine plainLoop_faults.bind fun st _ => ?_
    refine Faults.bind (Q := fun _ => True) ?_ fun _ _ => skip_faults.bind fun _ _ => .ok trivial
    unfold plainSlice
    split
    · exact slice_faults
    · exact truncEnd_faults.bind fun _ _ => utf8_faults

/-! ### Steps -/

/-- An error is one of `W`, or says that the key read before `s0` has no value, or asks for more text. -/
def Fails (opts : SFlags) (s0 : SS) (W : ScanError → SS → Prop) (m : Scan α) (s : SS) : Prop :=
  ∀ e s', m s = (.err e, s') → e = .Extend ∧ opts.extendable = true ∨ e = .MissingValue ∧ KeyDue s0 ∨ W e s'

/-- No other key has been read. -/
def SameKey (s0 s : SS) : Prop := s.sc.key = none ∨ s.sc.key = s0.sc.key

theorem Drops.sameKey {m : Scan α} {s0 s s' : SS} {a : α} (h : Drops m) (hk : SameKey s0 s) (hs : m s = (.ok a, s')) : SameKey s0 s' := by
  have := h s
  rw [hs] at this
  rcases this with h | h
  · exact .inl h
  · simp only at h
    unfold SameKey
    rw [h]
    exact hk

namespace Fails

variable {s0 s : SS} {W : ScanError → SS → Prop}

theorem bind {m : Scan α} {f : α → Scan β} (h : Fails opts s0 W m s) (hf : ∀ a s1, m s = (.ok a, s1) → Fails opts s0 W (f a) s1) :
    Fails opts s0 W (m >>= f) s := by
  intro e s' hs
  simp only [Bind.bind, SO.bind] at hs
  generalize hm : m s = r at hs
  obtain ⟨o, s1⟩ := r
  cases o with
  | ok a => exact hf a s1 hm e s' hs
  | err e1 => simp only [Prod.mk.injEq, Out.err.injEq] at hs; obtain ⟨rfl, rfl⟩ := hs; exact h _ _ hm
  | panic => simp at hs
  | diverge => simp at hs

/-- Reading the state. -/
theorem get {f : SS → Scan β} (hf : Fails opts s0 W (f s) s) : Fails opts s0 W (Scan.get >>= f) s := hf

theorem pure {a : α} : Fails opts s0 W (Pure.pure a : Scan α) s := fun _ _ h => by simp [Pure.pure, SO.pure] at h
theorem upd {f : Scanner → Scanner} : Fails opts s0 W (Scan.upd f) s := fun _ _ h => by simp [Scan.upd, SO.modify] at h
theorem enqueue {t : MaybeToken} {r : Nat} : Fails opts s0 W (Scan.enqueue t r) s := fun _ _ h => by simp [Scan.enqueue, SO.modify] at h
theorem push {t : Token} : Fails opts s0 W (Scan.push t) s := get enqueue
theorem unroll {c : Option Nat} : Fails opts s0 W (Scan.unrollIndent c) s := fun _ _ h => by simp [Scan.unrollIndent, SO.modify] at h
theorem popZero : Fails opts s0 W Scan.popZeroIndent s := fun _ _ h => by simp [Scan.popZeroIndent, SO.modify] at h
theorem takeKey : Fails opts s0 W Scan.takeKey s := get (upd.bind fun _ _ _ => pure)

theorem commit {b : Str} {m : MStats} : Fails opts s0 W (Scan.commit b m) s := by
  intro _ _ h
  unfold Scan.commit at h
  split at h <;> simp at h

theorem advance {n : Nat} : Fails opts s0 W (Scan.advance n) s := by
  intro e s' h
  unfold Scan.advance at h
  generalize hc : Cur.adv ⟨s.buf, s.sc.stats⟩ n = c at h
  cases c <;> simp at h
  unfold Cur.adv at hc
  split at hc <;> cases hc

theorem ite {c : Prop} [Decidable c] {m m' : Scan α} (h : c → Fails opts s0 W m s) (h' : ¬ c → Fails opts s0 W m' s) :
    Fails opts s0 W (if c then m else m') s := by
  split
  · exact h ‹_›
  · exact h' ‹_›

theorem lift {x : Out ScanError α} {F : ScanError → Prop} {Q : α → Prop} (h : Faults opts x Q F) (hw : ∀ e, F e → W e s) : Fails opts s0 W (SO.lift x) s := by
  intro e s' hs
  simp only [SO.lift, Prod.mk.injEq] at hs
  obtain ⟨rfl, rfl⟩ := hs
  exact (h.2 e rfl).imp id fun h => .inr (hw e h)

theorem sub {m : MStats} {f : Cur → Out ScanError α} {F : ScanError → Prop} {Q : α → Prop} (h : Faults opts (f ⟨s.buf, m⟩) Q F) (hw : ∀ e, F e → W e s) :
    Fails opts s0 W (Scan.sub m f) s := get (lift h hw)

theorem rollIndent {mark line column : Nat} {map : Bool} : Fails opts s0 W (Scan.rollIndent mark line column map) s :=
  get (ite (fun _ => ite (fun _ => upd.bind fun _ _ _ => enqueue) fun _ => ite (fun _ => upd.bind fun _ _ _ => enqueue) fun _ => pure) fun _ => pure)

theorem rollHere {map : Bool} : Fails opts s0 W (Scan.rollHere map) s := get rollIndent

theorem removeKey (hk : SameKey s0 s) : Fails opts s0 W Scan.removeSavedKey s := by
  refine takeKey.bind fun k s1 h => ?_
  obtain ⟨rfl, rfl⟩ := takeKey_ok h
  cases hs : s.sc.key with
  | none => exact pure
  | some k =>
    refine ite (fun hr => ?_) fun _ => pure
    intro e s' h
    simp only [SO.fail, Prod.mk.injEq, Out.err.injEq] at h
    refine .inr (.inl ⟨h.1.symm, k, ?_, ?_⟩)
    · rcases hk with hk | hk
      · rw [hk] at hs; cases hs
      · rw [← hk, hs]
    · unfold KeyPossible.required at hr
      split at hr
      · assumption
      · cases hr

theorem saveKey (hk : SameKey s0 s) : Fails opts s0 W Scan.saveKey s :=
  get (ite (fun _ => (removeKey hk).bind fun _ _ _ => upd) fun _ => pure)

theorem finish {t : MaybeToken} {c : Cur} (hk : SameKey s0 s) : Fails opts s0 W (Scan.finish t c) s :=
  (saveKey hk).bind fun _ _ _ => upd.bind fun _ _ _ => get (commit.bind fun _ _ _ => get enqueue)

theorem fail {e : ScanError} (h : W e s) : Fails opts s0 W (SO.fail e : Scan α) s := by
  intro e' s' hs
  simp only [SO.fail, Prod.mk.injEq, Out.err.injEq] at hs
  obtain ⟨rfl, rfl⟩ := hs
  exact .inr (.inr h)

theorem expireKey (hk : SameKey s0 s) : Fails opts s0 W Scan.expireKey s := by
  refine get ?_
  cases hs : s.sc.key with
  | none => exact pure
  | some k =>
    refine ite (fun _ => ite (fun hr => ?_) fun _ => upd) fun _ => pure
    intro e s' h
    simp only [SO.fail, Prod.mk.injEq, Out.err.injEq] at h
    refine .inr (.inl ⟨h.1.symm, k, ?_, ?_⟩)
    · rcases hk with hk | hk
      · rw [hk] at hs; cases hs
      · rw [← hk, hs]
    · unfold KeyPossible.required at hr
      split at hr
      · assumption
      · cases hr

theorem prepare : Fails opts s W (Scan.prepare opts) s := by
  refine Fails.bind ?_ fun _ s1 h1 => Fails.bind (expireKey ?_) fun _ _ _ => get (unroll.bind fun _ _ _ => popZero)
  · exact (sub (F := fun _ => False) eatWs_faults (fun _ h => h.elim)).bind fun _ _ _ => upd.bind fun _ _ _ => get commit
  · obtain ⟨c, -, e⟩ := eatWhitespace_ok h1
    right; rw [e]

end Fails

/-- What is wrong with the text, in the state before it. -/
def WrongHere (opts : SFlags) (s : SS) (e : ScanError) (s' : SS) : Prop :=
  Wrong opts.lazy s.sc.context.flow (s'.sc.context.level.getD 0) s.sc.stats.column (s.sc.simpleKeyAllowed = true) e s.buf

theorem flow_bne {x : Context} : x.isFlow = (x.flow != 0) := by
  unfold Context.isFlow
  cases x.flow <;> simp [bne]

theorem dispatch_unknown {x : Context} {column : Nat} {s : Str} (hs : s ≠ []) (hw : ¬ White s) (hc : ∀ t, s ≠ 0x23 :: t)
    (h : Scan.dispatch x column s = .unknown) : Reserved (x.flow != 0) column s := by
  obtain ⟨b, t, rfl⟩ : ∃ b t, s = b :: t := by cases s with | nil => exact absurd rfl hs | cons b t => exact ⟨b, t, rfl⟩
  unfold Scan.dispatch at h
  rcases ite_or h with ⟨_, h⟩ | ⟨h1, h⟩
  · cases h
  rcases ite_or h with ⟨_, h⟩ | ⟨h2, h⟩
  · cases h
  rcases ite_or h with ⟨_, h⟩ | ⟨h3, h⟩
  · cases h
  rcases ite_or h with ⟨_, h⟩ | ⟨h4, h⟩
  · cases h
  rcases ite_or h with ⟨_, h⟩ | ⟨h5, h⟩
  · cases h
  rcases ite_or h with ⟨_, h⟩ | ⟨h6, h⟩
  · cases h
  rcases ite_or h with ⟨_, h⟩ | ⟨h7, h⟩
  · cases h
  rcases ite_or h with ⟨_, h⟩ | ⟨h8, h⟩
  · cases h
  rcases ite_or h with ⟨_, h⟩ | ⟨h9, h⟩
  · cases h
  rcases ite_or h with ⟨_, h⟩ | ⟨h10, h⟩
  · cases h
  rcases ite_or h with ⟨_, h⟩ | ⟨h11, h⟩
  · cases h
  rcases ite_or h with ⟨_, h⟩ | ⟨h12, h⟩
  · cases h
  rcases ite_or h with ⟨_, h⟩ | ⟨h13, h⟩
  · cases h
  clear h
  have hwz : isWhiteSpaceZ (b :: t) = false := by
    cases hz : isWhiteSpaceZ (b :: t) with
    | false => rfl
    | true => exact absurd ((isWhiteSpaceZ_iff.1 hz).resolve_left (by simp)) hw
  have hcc : b ≠ b! '#' := fun h => hc t (by rw [h])
  have hfb : x.isBlock = true ∨ (x.flow != 0) = true := by
    unfold Context.isBlock
    cases x.flow <;> simp [bne]
  simp only [startsWith, List.head?_cons, Option.some.injEq, Bool.and_eq_true, Bool.or_eq_true, beq_iff_eq, not_or, not_and] at h1 h3 h4 h5 h6 h7 h8 h9 h10 h11 h12
  unfold Scan.isPlainScalar at h13
  simp only [hwz, Bool.false_eq_true, ↓reduceIte, Bool.not_eq_true] at h13
  split at h13
  · rename_i hl
    simp only [Bool.or_eq_true, decide_eq_true_eq, Bool.and_eq_true] at hl
    rcases hl with ((((((((((((((hl | hl) | hl) | hl) | hl) | hl) | hl) | hl) | hl) | hl) | hl) | hl) | hl) | hl) | hl) | hl
    · subst hl; exact .percent t (h1 rfl)
    · exact absurd hl h9.1
    · exact absurd hl h9.2
    · exact absurd hl h10
    · exact absurd hl h12.1
    · exact absurd hl h12.2
    · exact absurd hl h3.1
    · exact absurd hl h3.2
    · exact absurd hl h4.1
    · exact absurd hl.1 h4.2
    · exact absurd hl h5
    · subst hl; exact .literal t (hfb.resolve_left (h11 (.inl rfl)))
    · subst hl; exact .folded t (hfb.resolve_left (h11 (.inr rfl)))
    · exact absurd hl hcc
    · subst hl; exact .at t
    · subst hl; exact .backquote t
  · split at h13
    · rename_i hl
      simp only [Bool.or_eq_true, decide_eq_true_eq, Bool.and_eq_true, Bool.not_eq_true', Scan.isPlainSafe, Bool.or_eq_false_iff, Bool.not_eq_false'] at hl
      obtain ⟨hb, hx, hf⟩ := hl
      have hx' := hfb.resolve_left (by simp [hx])
      have hxf : x.isFlow = true := by rw [flow_bne]; exact hx'
      rcases hb with (hb | hb) | hb
      · exact absurd hxf (h8 hb).2
      · exact absurd hxf (h7 hb).1
      · subst hb
        refine .dash t hx' ?_
        unfold flowIndicator at hf
        simp only [Bool.or_eq_true, startsWith_iff] at hf
        rcases hf with (((⟨u, rfl⟩ | ⟨u, rfl⟩) | ⟨u, rfl⟩) | ⟨u, rfl⟩) | ⟨u, rfl⟩ <;> exact ⟨_, _, rfl, by decide⟩
    · cases h13

theorem not_flow {x : Context} (h : x.isBlock = true) : x.flow = 0 := by simpa [Context.isBlock] using h

/-- The errors of the choices. -/
theorem run_fails {s : SS} (hs : s.buf ≠ []) (hv : validUtf8 s.buf = true) (hw : ¬ White s.buf) (hc : ∀ t, s.buf ≠ 0x23 :: t) :
    Fails opts s (WrongHere opts s) (Scan.run opts (Scan.dispatch s.sc.context s.sc.stats.column s.buf)) s := by
  have hd := dispatch_says s.sc.context s.sc.stats.column s.buf
  have hu := dispatch_unknown (x := s.sc.context) (column := s.sc.stats.column) hs hw hc
  have hk : SameKey s s := .inr rfl
  generalize Scan.dispatch s.sc.context s.sc.stats.column s.buf = f at hd hu
  have valueBare : ∀ {s1 : SS}, s1.sc.context = s.sc.context → s1.sc.simpleKeyAllowed = s.sc.simpleKeyAllowed → f = .value → Fails opts s (WrongHere opts s) Scan.valueBare s1 := by
    rintro s1 e1 e2 rfl
    refine .get (Fails.bind (.get (.ite (fun hb => .ite (fun ha => .fail ?_) fun _ => .rollHere) fun _ => .pure)) fun _ _ _ => .upd)
    obtain ⟨t, ht, hf⟩ := hd
    rw [e1] at hb
    rw [e2] at ha
    unfold WrongHere
    rw [ht]
    have h0 := not_flow hb
    refine .value (hf.resolve_left ?_) h0 (by simpa using ha)
    rw [flow_bne, h0]; simp
  cases f with
  | directive =>
    obtain ⟨h1, t, ht⟩ := hd
    refine (Fails.sub (F := fun e => DirectiveFault e s.buf) (Q := fun _ => True) (by rw [ht]; exact directive_faults t) fun e he => .directive h1 he).bind fun p s1 h => ?_
    obtain ⟨-, rfl⟩ := sub_ok h
    refine Fails.unroll.bind fun _ s2 h2 => (Fails.removeKey ?_).bind fun _ _ _ => Fails.upd.bind fun _ _ _ => .get (Fails.commit.bind fun _ _ _ => .push)
    exact (Drops.unroll _).sameKey hk h2
  | marker start =>
    exact Fails.unroll.bind fun _ s2 h2 => (Fails.removeKey ((Drops.unroll _).sameKey hk h2)).bind fun _ _ _ => Fails.upd.bind fun _ _ _ =>
      Fails.advance.bind fun _ _ _ => .push
  | flowStart map =>
    refine Fails.upd.bind fun _ s1 h1 => Fails.advance.bind fun _ s2 h2 => Fails.push.bind fun _ s3 h3 => (Fails.saveKey ?_).bind fun _ _ _ => .upd
    have k1 : SameKey s s1 := by rw [upd_ok h1]; exact .inr rfl
    exact (Drops.push _).sameKey ((Drops.advance _).sameKey k1 h2) h3
  | flowEnd map =>
    obtain ⟨t, ht⟩ := hd
    refine (Fails.removeKey hk).bind fun _ s1 h1 => .get ((Fails.lift (F := fun e => e = .IntOverflow ∧ s.sc.context.flow = 0) (Q := fun _ => True) ?_ ?_).bind fun _ _ _ =>
      Fails.upd.bind fun _ _ _ => Fails.advance.bind fun _ _ _ => .push)
    · rw [removeKey_ok h1]
      refine ⟨fun _ _ => trivial, fun e he => .inr ?_⟩
      simp only [SS.setKey, Context.flowDecrement] at he
      split at he
      · rename_i h0
        cases he
        exact ⟨rfl, h0⟩
      · cases he
    · rintro e ⟨rfl, h0⟩
      unfold WrongHere
      rw [ht]
      exact .unbalanced (by cases map <;> simp) h0
  | flowEntry =>
    exact (Fails.removeKey hk).bind fun _ _ _ => Fails.upd.bind fun _ _ _ => Fails.advance.bind fun _ _ _ => .push
  | blockEntry =>
    obtain ⟨t, ht, he⟩ := hd
    refine Fails.bind (.get (.ite (fun _ => .rollHere) fun hb => .fail ?_)) fun _ s1 h1 => Fails.upd.bind fun _ s2 h2 => (Fails.removeKey ?_).bind fun _ _ _ =>
      Fails.upd.bind fun _ _ _ => Fails.advance.bind fun _ _ _ => .push
    · unfold WrongHere
      rw [ht]
      refine .entry he ?_
      simp only [Bool.and_eq_true, not_and, Bool.not_eq_true] at hb
      by_cases h0 : s.sc.context.flow = 0
      · exact .inr (by rw [hb (by simp [Context.isBlock, h0])]; simp)
      · exact .inl h0
    · have d1 : Drops Scan.blockEntryCheck := Drops.get.bind fun _ => Drops.rollHere.ite (Drops.fail _)
      rw [upd_ok h2]
      exact (d1.sameKey hk h1 : SameKey s s1)
  | explicitKey =>
    obtain ⟨t, ht, he⟩ := hd
    refine .get (Fails.bind (.get (.ite (fun hb => .ite (fun ha => .fail ?_) fun _ => .rollHere) fun _ => .pure)) fun _ s1 h1 => (Fails.removeKey ?_).bind fun _ _ _ =>
      Fails.upd.bind fun _ _ _ => Fails.advance.bind fun _ _ _ => .push)
    · unfold WrongHere
      rw [ht]
      have h0 := not_flow hb
      refine .key (he.resolve_left ?_) h0 (by simpa using ha)
      rw [flow_bne, h0]; simp
    · have d1 : Drops Scan.explicitKeyCheck := Drops.get.bind fun _ => ((Drops.fail _).ite Drops.rollHere).ite (Drops.pure _)
      exact d1.sameKey hk h1
  | value =>
    refine Fails.takeKey.bind fun k s1 h1 => ?_
    obtain ⟨rfl, rfl⟩ := takeKey_ok h1
    refine Fails.bind ?_ fun _ _ _ => Fails.advance.bind fun _ _ _ => .push
    cases hkk : s.sc.key with
    | none => exact valueBare rfl rfl rfl
    | some k =>
      exact .ite (fun _ => Fails.rollIndent.bind fun _ _ _ => Fails.enqueue.bind fun _ _ _ => .upd) fun _ => valueBare rfl rfl rfl
  | anchor =>
    obtain ⟨t, ht⟩ := hd
    refine .get ((Fails.sub (F := fun e => AnchorFault e s.buf) (Q := fun _ => True) ?_ fun e he => .anchor he).bind fun p s1 h => ?_)
    · rcases ht with ht | ht <;> rw [ht]
      · exact scanAnchor_faults (.inl rfl)
      · exact scanAnchor_faults (.inr rfl)
    · obtain ⟨-, rfl⟩ := sub_ok h
      exact .finish hk
  | tag =>
    obtain ⟨t, ht⟩ := hd
    refine (Fails.sub (F := fun e => TagFault e s.buf) (Q := fun _ => True) (by rw [ht]; exact scanNodeTag_faults t) fun e he => .tag he).bind fun p s1 h => ?_
    obtain ⟨-, rfl⟩ := sub_ok h
    exact .finish hk
  | block fold =>
    obtain ⟨h0, t, ht⟩ := hd
    rw [flow_bne] at h0
    have h0 : s.sc.context.flow = 0 := by simpa [bne] using h0
    refine (Fails.removeKey hk).bind fun _ s1 h1 => Fails.upd.bind fun _ s2 h2 => .get ((Fails.sub (F := fun e => BlockFault (s.sc.context.level.getD 0) e t) (Q := fun _ => True) ?_ ?_).bind
      fun p s3 h => Fails.commit.bind fun _ _ _ => .enqueue)
    · rw [upd_ok h2, removeKey_ok h1]
      simp only [SS.setKey]
      rw [ht]
      exact scanBlock_faults
    · intro e he
      unfold WrongHere
      rw [ht]
      refine .block h0 ?_
      rw [upd_ok h2, removeKey_ok h1]
      exact he
  | quoted =>
    obtain ⟨t, ht⟩ := hd
    have ht : s.buf = quoteMark (startsWith s.buf 0x27) :: t := by rcases ht with ht | ht <;> rw [ht] <;> rfl
    have hvt : validUtf8 t = true := by
      have := hv
      rw [ht] at this
      exact validUtf8_drop_ascii (p := [quoteMark (startsWith s.buf 0x27)]) (by intro b hb; simp only [List.mem_singleton] at hb; subst hb; cases startsWith s.buf 0x27 <;> decide) this
    generalize hsg : startsWith s.buf 0x27 = single at ht
    refine .get ((Fails.sub (F := fun e => WrongHere opts s e s) (Q := fun _ => True) ?_ fun e he => he).bind fun p s1 h => ?_)
    · rw [hsg]
      unfold scanFlow WrongHere
      rw [ht]
      split
      · rename_i hl
        refine Faults.bind (Q := fun _ => True) ((scanFlowLazy_faults hvt).mono (fun _ h => h) ?_) fun _ _ => .ok trivial
        rintro e ⟨rfl, he⟩
        exact .unclosed hl he
      · rename_i hl
        exact Faults.bind (Q := fun _ => True) (scanFlowEager_faults.mono (fun _ h => h) fun e he => .quoted (by simpa using hl) he) fun _ _ => .ok trivial
    · obtain ⟨-, rfl⟩ := sub_ok h
      exact .finish hk
  | plain =>
    refine .get ((Fails.sub (F := fun _ => False) (Q := fun _ => True) (scanPlain_faults ?_) fun e he => he.elim).bind fun p s1 h => ?_)
    · obtain ⟨b, t, hb, h1, h2, h3, h4, h5⟩ := hd
      simp only [hb]
      unfold plainBadStart
      cases hbl : s.sc.context.isBlock with
      | true => rfl
      | false =>
        have hfl : s.sc.context.isFlow = true := by
          rw [flow_bne]; unfold Context.isBlock at hbl; simpa [bne] using hbl
        simp only [Bool.not_false, Bool.true_and, startsWith, List.drop_succ_cons, List.drop_zero]
        by_cases hq : b = b! '?' ∨ b = b! ':'
        · rw [hfl] at h5; exact absurd (h5 hq).1 (by simp)
        · by_cases hm : b = b! '-'
          · have hff := (h4 hm).2 hfl
            cases hfi : flowIndicator t with
            | false => simp
            | true =>
              refine absurd ?_ hff
              unfold flowIndicator at hfi
              simp only [Bool.or_eq_true, startsWith_iff] at hfi
              rcases hfi with (((⟨u, rfl⟩ | ⟨u, rfl⟩) | ⟨u, rfl⟩) | ⟨u, rfl⟩) | ⟨u, rfl⟩ <;> exact ⟨_, _, rfl, by decide⟩
          · have := not_or.1 hq
            simp [this.1, this.2, hm]
    · obtain ⟨-, rfl⟩ := sub_ok h
      exact (Fails.saveKey hk).bind fun _ _ _ => Fails.upd.bind fun _ _ _ => Fails.commit.bind fun _ _ _ => .enqueue
  | unknown => exact .fail (.reserved (hu rfl))

theorem skips_stop {comments : Bool} {s r : Str} {n : Nat} (h : Skips comments s n r) :
    (∀ t, r ≠ 0x20 :: t) ∧ (∀ t, r ≠ 0x09 :: t) ∧ ¬ AtBreak r ∧ (comments = true → ∀ t, r ≠ 0x23 :: t) := by
  induction h with
  | done h1 h2 h3 h4 => exact ⟨h1, h2, h3, h4⟩
  | blank _ _ ih => exact ih
  | line _ _ ih => exact ih
  | comment _ _ _ _ ih => exact ih

/-- The errors of a step. -/
theorem step_fails {s s' : SS} {e : ScanError} (hB : Before s) (hst : s.sc.state = .Stream) (hs : Scan.scanNextToken opts s = (.err e, s')) :
    e = .Extend ∧ opts.extendable = true ∨ e = .MissingValue ∧ KeyDue s ∨
      ∃ s1 n p, s.buf = p ++ s1.buf ∧ Skips true s.buf n s1.buf ∧ s1.sc.stats = posAfter s.sc.stats p ∧ s1.sc.context.flow = s.sc.context.flow ∧
        (s1.sc.simpleKeyAllowed = true ↔ s.sc.simpleKeyAllowed = true ∨ n ≠ 0) ∧ WrongHere opts s1 e s' := by
  refine Fails.get (W := fun e s' => ∃ s1 n p, s.buf = p ++ s1.buf ∧ Skips true s.buf n s1.buf ∧ s1.sc.stats = posAfter s.sc.stats p ∧ s1.sc.context.flow = s.sc.context.flow ∧
        (s1.sc.simpleKeyAllowed = true ↔ s.sc.simpleKeyAllowed = true ∨ n ≠ 0) ∧ WrongHere opts s1 e s') ?_ e s' hs
  rw [hst]
  simp only [show (StreamState.Stream == StreamState.Start) = false from rfl, Bool.false_eq_true, ↓reduceIte]
  refine Fails.prepare.bind fun _ s1 h1 => ?_
  obtain ⟨n, g1, g2, g3⟩ := prepare_place h1
  obtain ⟨hB1, hR, hst1, -, -, hkey⟩ := prepare_ok hB h1
  obtain ⟨p, hp1, hp2⟩ := hR.posAfter
  simp only at hp1 hp2
  have due : KeyDue s1 → KeyDue s := by
    rintro ⟨k, h1, h2⟩
    rcases hkey k h1 with h | ⟨k0, -, rfl⟩
    · exact ⟨k, h, h2⟩
    · cases h2
  refine .get (.ite (fun hc => ?_) fun hc => ?_)
  · refine .get (.ite (fun _ => .pure) fun _ => .ite (fun _ => ?_) fun _ => .pure)
    refine Fails.unroll.bind fun _ s2 h2 => Fails.bind ?_ fun _ _ _ => Fails.upd.bind fun _ _ _ => .push
    intro e s' h
    have := Fails.removeKey (opts := opts) (W := fun _ _ => False) ((Drops.unroll _).sameKey (s0 := s1) (.inr rfl) h2) e s' h
    rcases this with h | ⟨h, h'⟩ | h
    · exact .inl h
    · exact .inr (.inl ⟨h, due h'⟩)
    · exact h.elim
  · rw [hst1, hst] at hc
    have hne : s1.buf ≠ [] := by
      intro h
      rw [h] at hc
      exact hc rfl
    refine (Fails.lift (Q := fun _ => True) (F := fun _ => False) (cache_faults _ _) fun _ h => h.elim).bind fun _ s2 h2 => ?_
    have : s2 = s1 := by
      simp only [SO.lift, Prod.mk.injEq] at h2
      exact h2.2.symm
    subst this
    obtain ⟨k1, k2, k3, k4⟩ := skips_stop g1
    intro e s' h
    have hw : ¬ White s2.buf := by
      rintro (⟨t, h | h⟩ | h)
      · exact k1 t h
      · exact k2 t h
      · exact k3 h
    rcases run_fails hne hB1.valid hw (k4 rfl) e s' h with h | ⟨h, h'⟩ | h
    · exact .inl h
    · exact .inr (.inl ⟨h, due h'⟩)
    · exact .inr (.inr ⟨s2, n, p, hp1, g1, hp2, g3, g2, h⟩)

end Yary
