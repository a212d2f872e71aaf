import Verif.Proof.Lazy.Flags
import Verif.Spec.Lazy
import Verif.Proof.Lazy.FlowRest
import Verif.Proof.Lazy.PlainRest
import Verif.Proof.Lazy.BlockRest
import Verif.Proof.Chunk.Loop
import Verif.Proof.Scan.Comes

/-! # One step of the scanner, with and without evaluating scalars -/

namespace Yary.Deferred

open Chunk Spec Scan

/-- Some block scalar in the text does not say what to do with its final line breaks. -/
def Loose (base : Str) : Prop := ∃ r, Suf base r ∧ (startsWith r b! '|' = true ∨ startsWith r b! '>' = true) ∧ ¬ SaysChomp r

/-- The second is the first, to be evaluated; in a text with block scalars that do not say what to do with their
final line breaks, evaluation may lose the last. -/
def Ev (base : Str) (m m' : MaybeToken) : Prop :=
  (m' = m ∧ ∃ t, m = .Token t) ∨ ∃ l t t', m = .Token t ∧ m' = .Deferred l ∧ l.intoToken = .ok t' ∧
    (t' = t ∨ Loose base ∧ ∃ v b fold, (b = 0x0A ∨ b = 0x0D) ∧ t' = .Scalar v (blockStyle fold) ∧ t = .Scalar (v ++ [b]) (blockStyle fold))

/-- The same for a token at a position. -/
def EvAt (base : Str) (e e' : TokenEntry) : Prop := e'.readAt = e.readAt ∧ Ev base e.wrap e'.wrap

/-- A token that is there. -/
def IsTok (e : TokenEntry) : Prop := ∃ t, e.wrap = .Token t

theorem evAll_refl {base : Str} {l : List TokenEntry} (hl : ∀ e ∈ l, IsTok e) : Pairs (EvAt base) l l := by
  induction l with
  | nil => exact .nil
  | cons e l ih => exact .cons ⟨rfl, .inl ⟨rfl, hl e (by simp)⟩⟩ (ih fun e he => hl e (by simp [he]))

theorem evAll_append {base : Str} {a a' b b' : List TokenEntry} (h : Pairs (EvAt base) a a') (h' : Pairs (EvAt base) b b') :
    Pairs (EvAt base) (a ++ b) (a' ++ b') := by
  induction h with
  | nil => exact h'
  | cons h1 _ ih => exact .cons h1 ih

/-- What a method does with a token is only to push it. -/
def Swap (m : MaybeToken → Scan Unit) : Prop := ∀ t t' s s1, m t s = (.ok (), s1) →
  ∃ l n, (∀ e ∈ l, IsTok e) ∧ s1.out = s.out ++ l ++ [⟨t, n⟩] ∧ m t' s = (.ok (), { s1 with out := s.out ++ l ++ [⟨t', n⟩] })

theorem Swap.enqueue {n : Nat} : Swap (fun t => enqueue t n) := by
  intro t t' s s1 h
  have : s1 = _ := (congrArg Prod.snd h).symm
  subst this
  exact ⟨[], n, by simp, by simp [Scan.enqueue, SO.modify], by simp [Scan.enqueue, SO.modify]⟩

theorem Swap.bind {α : Type} {p : Scan α} {m : α → MaybeToken → Scan Unit} (hp : Adds IsTok p) (hm : ∀ a, Swap (m a)) :
    Swap (fun t => p >>= fun a => m a t) := by
  intro t t' s s2 h
  dsimp only at h ⊢
  obtain ⟨a, s1, h1, h2⟩ := bind_ok h
  obtain ⟨l, h3, hl⟩ := hp.of_eq h1
  obtain ⟨l', n, hl', h4, h5⟩ := hm a t t' s1 s2 h2
  refine ⟨l ++ l', n, fun e he => (List.mem_append.1 he).elim (hl e) (hl' e), by rw [h4, h3]; simp, ?_⟩
  rw [bind_run h1, h5, h3]
  simp

theorem swap_finish {c : Cur} : Swap (fun t => finish t c) :=
  .bind Adds.saveKey fun _ => .bind (Adds.upd _) fun _ => .bind Adds.get fun _ => .bind (Adds.commit _ _) fun _ =>
    .bind Adds.get fun _ => .enqueue

theorem swap_plain {c : Cur} : Swap (fun t => do
    saveKey
    upd fun sc => { sc with simpleKeyAllowed := false }
    commit c.buf c.stats
    enqueue t c.stats.read) :=
  .bind Adds.saveKey fun _ => .bind (Adds.upd _) fun _ => .bind (Adds.commit _ _) fun _ => .enqueue

theorem swap_block {c : Cur} : Swap (fun t => do
    commit c.buf c.stats
    enqueue t c.stats.read) :=
  .bind (Adds.commit _ _) fun _ => .enqueue

variable {o o' : SFlags} (hx : o.extendable = false) (hx' : o'.extendable = false) (hl : o.lazy = false) (hl' : o'.lazy = true)

/-- The two come to the same, up to the evaluation of what they push. -/
def Both (base : Str) (s s1 : SS) (r : Out ScanError Unit × SS) : Prop :=
  ∃ s1', r = (.ok (), s1') ∧ s1'.sc = s1.sc ∧ s1'.buf = s1.buf ∧ ∃ new new', s1.out = s.out ++ new ∧ s1'.out = s.out ++ new' ∧
    Pairs (EvAt base) new new'

theorem Swap.both {m : MaybeToken → Scan Unit} (hm : Swap m) {base : Str} {t t' : MaybeToken} (ht : Ev base t t') {s s1 : SS}
    (h : m t s = (.ok (), s1)) : Both base s s1 (m t' s) := by
  obtain ⟨l, n, hl, h1, h2⟩ := hm t t' s s1 h
  refine ⟨_, h2, rfl, rfl, l ++ [⟨t, n⟩], l ++ [⟨t', n⟩], by rw [h1]; simp, by simp, ?_⟩
  exact evAll_append (evAll_refl hl) (.cons ⟨rfl, ht⟩ .nil)

theorem Both.same {base : Str} {m : Scan Unit} (hm : Adds IsTok m) {s s1 : SS} (h : m s = (.ok (), s1)) : Both base s s1 (m s) := by
  obtain ⟨l, h1, hl⟩ := hm.of_eq h
  exact ⟨s1, h, rfl, rfl, l, l, h1, h1, evAll_refl hl⟩

theorem adds_valueKey {key : Option KeySave} : Adds IsTok (valueKey key) := by
  unfold valueKey valueSaved valueBare valueCheck
  repeat' first
    | with_reducible exact Adds.pure _
    | with_reducible exact Adds.fail _
    | with_reducible exact Adds.get
    | with_reducible exact Adds.upd _
    | exact Adds.enqueue ⟨_, rfl⟩
    | exact Adds.rollIndent ⟨_, rfl⟩
    | exact Adds.rollHere fun _ => ⟨_, rfl⟩
    | with_reducible refine Adds.bind ?_ fun _ => ?_
    | split

include hx hx' hl hl' in
/-- What is fetched. -/
theorem run_both {base : Str} {s s1 : SS} (hs : Suf base s.buf) (hv : validUtf8 s.buf = true) (hE : NoEsc s.buf) (hN : Narrow s.buf)
    (h : run o (dispatch s.sc.context s.sc.stats.column s.buf) s = (.ok (), s1)) :
    Both base s s1 (run o' (dispatch s.sc.context s.sc.stats.column s.buf) s) := by
  have he : o.extendable = o'.extendable := by rw [hx, hx']
  have hd := Closed.dispatch_starts s.sc.context s.sc.stats.column s.buf
  generalize dispatch s.sc.context s.sc.stats.column s.buf = f at h hd
  cases f with
  | directive =>
    have e : run o .directive = run o' .directive := by
      simp only [run, fetchDirective, directiveToken_flag he]
    rw [← e]
    refine .same ?_ h
    exact (Adds.sub _ _).bind fun _ => (Adds.unroll (fun _ => ⟨_, rfl⟩) _).bind fun _ => Adds.removeKey.bind fun _ => (Adds.upd _).bind fun _ =>
      Adds.get.bind fun _ => (Adds.commit _ _).bind fun _ => Adds.push fun _ => ⟨_, rfl⟩
  | marker start =>
    refine .same ?_ h
    exact (Adds.unroll (fun _ => ⟨_, rfl⟩) _).bind fun _ => Adds.removeKey.bind fun _ => (Adds.upd _).bind fun _ =>
      (Adds.advance _).bind fun _ => Adds.push fun _ => ⟨_, rfl⟩
  | flowStart map =>
    refine .same ?_ h
    exact (Adds.upd _).bind fun _ => (Adds.advance _).bind fun _ =>
      (Adds.push fun _ => ⟨_, rfl⟩).bind fun _ => Adds.saveKey.bind fun _ => Adds.upd _
  | flowEnd map =>
    refine .same ?_ h
    exact Adds.removeKey.bind fun _ => Adds.get.bind fun _ => (Adds.lift _).bind fun _ =>
      (Adds.upd _).bind fun _ => (Adds.advance _).bind fun _ => Adds.push fun _ => ⟨_, rfl⟩
  | flowEntry =>
    refine .same ?_ h
    exact Adds.removeKey.bind fun _ => (Adds.upd _).bind fun _ => (Adds.advance _).bind fun _ => Adds.push fun _ => ⟨_, rfl⟩
  | blockEntry =>
    refine .same ?_ h
    exact (Adds.get.bind fun _ => (Adds.rollHere fun _ => ⟨_, rfl⟩).ite (Adds.fail _)).bind fun _ =>
      (Adds.upd _).bind fun _ => Adds.removeKey.bind fun _ => (Adds.upd _).bind fun _ =>
      (Adds.advance _).bind fun _ => Adds.push fun _ => ⟨_, rfl⟩
  | explicitKey =>
    refine .same ?_ h
    refine Adds.get.bind fun _ => Adds.bind ?_ fun _ => Adds.removeKey.bind fun _ => (Adds.upd _).bind fun _ =>
      (Adds.advance _).bind fun _ => Adds.push fun _ => ⟨_, rfl⟩
    exact Adds.get.bind fun _ => Adds.ite (Adds.ite (Adds.fail _) (Adds.rollHere fun _ => ⟨_, rfl⟩)) (Adds.pure _)
  | value =>
    refine .same ?_ h
    exact Adds.takeKey.bind fun _ => adds_valueKey.bind fun _ => (Adds.advance _).bind fun _ => Adds.push fun _ => ⟨_, rfl⟩
  | anchor =>
    have e : run o .anchor = run o' .anchor := by
      simp only [run, fetchAnchor, scanAnchor_flag he]
    rw [← e]
    refine .same ?_ h
    exact Adds.get.bind fun _ => (Adds.sub _ _).bind fun _ => Adds.saveKey.bind fun _ => (Adds.upd _).bind fun _ => Adds.get.bind fun _ =>
      (Adds.commit _ _).bind fun _ => Adds.get.bind fun _ => Adds.enqueue ⟨_, rfl⟩
  | tag =>
    have e : run o .tag = run o' .tag := by
      simp only [run, fetchTag, scanNodeTag_flag he]
    rw [← e]
    refine .same ?_ h
    exact (Adds.sub _ _).bind fun _ => Adds.saveKey.bind fun _ => (Adds.upd _).bind fun _ => Adds.get.bind fun _ =>
      (Adds.commit _ _).bind fun _ => Adds.get.bind fun _ => Adds.enqueue ⟨_, rfl⟩
  | quoted =>
    simp only [run, fetchFlowScalar] at h ⊢
    obtain ⟨a, s0, h1, h⟩ := bind_ok h
    obtain ⟨rfl, rfl⟩ := get_ok h1
    obtain ⟨⟨tok, c⟩, s0, h2, h⟩ := bind_ok h
    obtain ⟨h3, rfl⟩ := sub_ok h2
    unfold scanFlow at h3
    rw [hl, if_neg (by simp)] at h3
    obtain ⟨⟨t, c'⟩, h4, h3⟩ := Out.bind_eq_ok.1 h3
    injection h3 with h3; injection h3 with h5 h6; subst h5; subst h6
    obtain ⟨l, h5, h6⟩ := scanFlow_lazy hx' hx hv (fun _ => hE) h4
    rw [bind_run h1, bind_run (a := (.Deferred l, c')) (s1 := s)]
    · exact swap_finish.both (.inr ⟨l, t, t, rfl, rfl, h6, .inl rfl⟩) h
    · unfold Scan.sub
      rw [bind_run h1]
      unfold scanFlow
      rw [hl', if_pos rfl, h5]; rfl
  | plain =>
    simp only [run, fetchPlainScalar] at h ⊢
    obtain ⟨a, s0, h1, h⟩ := bind_ok h
    obtain ⟨rfl, rfl⟩ := get_ok h1
    obtain ⟨⟨tok, c⟩, s0, h2, h⟩ := bind_ok h
    obtain ⟨h3, rfl⟩ := sub_ok h2
    unfold scanPlain at h3
    rw [hl, if_neg (by simp)] at h3
    obtain ⟨⟨t, c'⟩, h4, h3⟩ := Out.bind_eq_ok.1 h3
    injection h3 with h3; injection h3 with h5 h6; subst h5; subst h6
    obtain ⟨l, h5, h6⟩ := scanPlain_lazy hx hx' hv hN h4
    rw [bind_run h1, bind_run (a := (.Deferred l, c')) (s1 := s)]
    · exact swap_plain.both (.inr ⟨l, t, t, rfl, rfl, h6, .inl rfl⟩) h
    · unfold Scan.sub
      rw [bind_run h1]
      unfold scanPlain
      rw [hl', if_pos rfl, h5]; rfl
  | block fold =>
    simp only [run, fetchBlockScalar] at h ⊢
    obtain ⟨_, s2, h1, h⟩ := bind_ok h
    obtain ⟨_, s3, h2, h⟩ := bind_ok h
    obtain ⟨a, s0, h3, h⟩ := bind_ok h
    obtain ⟨rfl, rfl⟩ := get_ok h3
    obtain ⟨⟨tok, c⟩, s0, h4, h⟩ := bind_ok h
    obtain ⟨h5, rfl⟩ := sub_ok h4
    have e1 := removeKey_ok h1
    have e2 := upd_ok h2
    have e3 : s3.buf = s.buf := by rw [e2, e1]; rfl
    have e4 : s3.out = s.out := by rw [e2, e1]; rfl
    unfold scanBlock at h5
    rw [hl, if_neg (by simp)] at h5
    obtain ⟨⟨t, c'⟩, h6, h5⟩ := Out.bind_eq_ok.1 h5
    injection h5 with h5; injection h5 with h7 h8; subst h7; subst h8
    obtain ⟨⟨r, hr⟩, -⟩ := hd
    obtain ⟨l, t', h7, h8, h9⟩ := scanBlock_lazy hx hx' (by rw [e3]; exact hv) (by rw [e3, hr]; simp) h6
    rw [bind_run h1, bind_run h2, bind_run h3, bind_run (a := (.Deferred l, c')) (s1 := s3)]
    · have hev : Ev base (.Token t) (.Deferred l) := by
        refine .inr ⟨l, t, t', rfl, rfl, h8, ?_⟩
        rcases h9 with h9 | ⟨h9, v, b, h10, h11, h12⟩
        · exact .inl h9
        · refine .inr ⟨⟨s.buf, hs, ?_, by simp only at h9; rw [e3] at h9; exact h9⟩, v, b, fold, h10, h11, h12⟩
          rw [hr]; cases fold <;> simp [startsWith_cons]
      obtain ⟨s1', g1, g2, g3, g4⟩ := swap_block.both hev h
      exact ⟨s1', g1, g2, g3, by rw [← e4]; exact g4⟩
    · unfold Scan.sub
      rw [bind_run h3]
      unfold scanBlock
      rw [hl', if_pos rfl, h7]; rfl
  | unknown => cases h

include hx hx' hl hl' in
/-- One step. -/
theorem step_both {base : Str} {s s1 : SS} (hs : Suf base s.buf) (hv : validUtf8 s.buf = true) (hE : NoEsc base) (hN : Narrow base)
    (hd : s.sc.state ≠ .Done) (h : scanNextToken o s = (.ok (), s1)) : Both base s s1 (scanNextToken o' s) := by
  have he : o.extendable = o'.extendable := by rw [hx, hx']
  by_cases hst : s.sc.state = .Start
  · unfold scanNextToken at h ⊢
    obtain ⟨a, s0, h1, h⟩ := bind_ok h
    obtain ⟨rfl, rfl⟩ := get_ok h1
    rw [bind_run h1]
    have hst' : (s.sc.state == .Start) = true := by simpa using hst
    rw [if_pos hst'] at h ⊢
    exact .same ((Adds.upd _).bind fun _ => Adds.push fun _ => ⟨_, rfl⟩) h
  · obtain ⟨s2, h1, h2⟩ := step_cases h hst
    have hst' : ¬ (s.sc.state == .Start) = true := by simpa using hst
    have hp := (closed_rest s.buf s.sc.offset).prepare (P := True) (opts := o) (s := s) (.inl trivial) ⟨hv, ⟨[], rfl⟩, rfl, hd⟩
    have hr := (hp.of_ok h1).1
    obtain ⟨l, ho, hl1⟩ := (Adds.prepare (S := IsTok) (opts := o) (fun _ => ⟨_, rfl⟩)).of_eq h1
    have h1' : prepare o' s = (.ok (), s2) := by rw [← prepare_flag he]; exact h1
    unfold scanNextToken
    rw [bind_run (m := Scan.get) (a := s) (s1 := s) rfl, if_neg hst', bind_run h1']
    unfold fetchNext
    rw [bind_run (m := Scan.get) (a := s2) (s1 := s2) rfl]
    have lift : ∀ r, Both base s2 s1 r → Both base s s1 r := by
      rintro r ⟨s1', g1, g2, g3, n, n', g4, g5, g6⟩
      exact ⟨s1', g1, g2, g3, l ++ n, l ++ n', by rw [g4, ho]; simp, by rw [g5, ho]; simp, evAll_append (evAll_refl hl1) g6⟩
    apply lift
    rcases h2 with ⟨h2, h3⟩ | ⟨h2, h3⟩
    · rw [if_pos (by simpa using h2)]
      refine .same ?_ h3
      exact Adds.get.bind fun _ => Adds.ite (Adds.pure _) (Adds.ite ((Adds.unroll (fun _ => ⟨_, rfl⟩) _).bind fun _ => Adds.removeKey.bind fun _ =>
        (Adds.upd _).bind fun _ => Adds.push fun _ => ⟨_, rfl⟩) (Adds.pure _))
    · have hnd : s2.sc.state ≠ .Done := hr.2.2.2
      rw [if_neg (by simp [h2, hnd]), cache_whole o' hx']
      rw [bind_run (m := SO.lift (.ok ())) (a := ()) (s1 := s2) rfl]
      have hs2 : Suf base s2.buf := hs.trans hr.2.1
      exact run_both hx hx' hl hl' hs2 hr.1 (hE.suf hs2) (hN.suf hs2) h3

end Yary.Deferred
