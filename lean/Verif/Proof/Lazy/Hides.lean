import Verif.Proof.Lazy.FlowErrors
import Verif.Proof.Lazy.ScalarErrors
import Verif.Proof.Lazy.Histories
import Verif.Proof.Deliver

/-! # What evaluating scalars later hides

Where the calls that evaluate scalars fail and those that do not go on, one of the tokens does not evaluate. -/

namespace Yary.Deferred

open Chunk Spec Scan

/-- A scalar whose evaluation fails. -/
def Bad (e : TokenEntry) : Prop := ∃ l er, e.wrap = .Deferred l ∧ l.intoToken = .err er

/-- The first comes to the end as well, unless it panics or one of the tokens the second pushed does not evaluate. -/
def Hides (s s1' : SS) (r : Out ScanError Unit × SS) : Prop :=
  (∃ s1, r = (.ok (), s1)) ∨ r.1 = .panic ∨ r.1 = .diverge ∨ ∃ new, s1'.out = s.out ++ new ∧ ∃ b ∈ new, Bad b

theorem bind_run_panic {α β : Type} {m : Scan α} {f : α → Scan β} {s : SS} (h : (m s).1 = .panic) : ((m >>= f) s).1 = .panic := by
  show (SO.bind m f s).1 = _
  unfold SO.bind
  generalize m s = r at h
  obtain ⟨x, s1⟩ := r
  cases x <;> cases h
  rfl

theorem bind_run_diverge {α β : Type} {m : Scan α} {f : α → Scan β} {s : SS} (h : (m s).1 = .diverge) : ((m >>= f) s).1 = .diverge := by
  show (SO.bind m f s).1 = _
  unfold SO.bind
  generalize m s = r at h
  obtain ⟨x, s1⟩ := r
  cases x <;> cases h
  rfl

theorem Swap.hides {m : MaybeToken → Scan Unit} (hm : Swap m) {l : Lazy} {e : ScanError} (hl : l.intoToken = .err e) {s s1 : SS}
    (h : m (.Deferred l) s = (.ok (), s1)) : ∃ new, s1.out = s.out ++ new ∧ ∃ b ∈ new, Bad b := by
  obtain ⟨k, n, -, h1, -⟩ := hm _ (.Deferred l) s s1 h
  exact ⟨k ++ [⟨.Deferred l, n⟩], by rw [h1]; simp, ⟨.Deferred l, n⟩, List.mem_append_right _ (List.mem_singleton.2 rfl), l, e, rfl, hl⟩

/-- A scalar that one scans and the other does not evaluate. -/
theorem sub_hides {k : MaybeToken → Cur → Scan Unit} (hk : ∀ c, Swap fun t => k t c) {F : Cur → Out ScanError (MaybeToken × Cur)}
    {E : Out ScanError (Token × Cur)} {st : MStats} {s s1 : SS} {l : Lazy} {c' : Cur}
    (hF : F ⟨s.buf, st⟩ = E >>= fun x => .ok (.Token x.1, x.2)) (hok : ∀ t c2, E = .ok (t, c2) → c2 = c')
    (her : ∀ e, E = .err e → l.intoToken = .err e) (h : k (.Deferred l) c' s = (.ok (), s1)) :
    Hides s s1 ((Scan.sub st F >>= fun x => k x.1 x.2) s) := by
  have hsub : Scan.sub st F s = (E >>= fun x => .ok (.Token x.1, x.2), s) := by
    unfold Scan.sub
    rw [bind_run (m := Scan.get) (a := s) (s1 := s) rfl, hF]
    rfl
  cases E with
  | ok x =>
    obtain ⟨t, c2⟩ := x
    have := hok t c2 rfl
    subst this
    rw [bind_run (a := (.Token t, c2)) (s1 := s) hsub]
    obtain ⟨_, _, -, -, h7⟩ := hk c2 _ (.Token t) s s1 h
    exact .inl ⟨_, h7⟩
  | err e => exact .inr (.inr (.inr ((hk c').hides (her e rfl) h)))
  | panic => exact .inr (.inl (bind_run_panic (by rw [hsub]; rfl)))
  | diverge => exact .inr (.inr (.inl (bind_run_diverge (by rw [hsub]; rfl))))

variable {o o' : SFlags} (hx : o.extendable = false) (hx' : o'.extendable = false) (hl : o.lazy = false) (hl' : o'.lazy = true)

include hx hx' hl hl' in
theorem run_hides {s s1 : SS} (hv : validUtf8 s.buf = true) (hE : NoEsc s.buf) (hN : Narrow s.buf)
    (h : run o' (dispatch s.sc.context s.sc.stats.column s.buf) s = (.ok (), s1)) :
    Hides s s1 (run o (dispatch s.sc.context s.sc.stats.column s.buf) s) := by
  have he : o.extendable = o'.extendable := by rw [hx, hx']
  have hd := Closed.dispatch_starts s.sc.context s.sc.stats.column s.buf
  generalize dispatch s.sc.context s.sc.stats.column s.buf = f at h hd
  cases f with
  | directive =>
    have e : run o .directive = run o' .directive := by
      simp only [run, fetchDirective, directiveToken_flag he]
    rw [e]; exact .inl ⟨_, h⟩
  | marker start => exact .inl ⟨_, h⟩
  | flowStart map => exact .inl ⟨_, h⟩
  | flowEnd map => exact .inl ⟨_, h⟩
  | flowEntry => exact .inl ⟨_, h⟩
  | blockEntry => exact .inl ⟨_, h⟩
  | explicitKey => exact .inl ⟨_, h⟩
  | value => exact .inl ⟨_, h⟩
  | anchor =>
    have e : run o .anchor = run o' .anchor := by
      simp only [run, fetchAnchor, scanAnchor_flag he]
    rw [e]; exact .inl ⟨_, h⟩
  | tag =>
    have e : run o .tag = run o' .tag := by
      simp only [run, fetchTag, scanNodeTag_flag he]
    rw [e]; exact .inl ⟨_, h⟩
  | quoted =>
    simp only [run, fetchFlowScalar] at h ⊢
    obtain ⟨a, s0, h1, h⟩ := bind_ok h
    obtain ⟨rfl, rfl⟩ := get_ok h1
    obtain ⟨⟨tok, c⟩, s0, h2, h⟩ := bind_ok h
    obtain ⟨h3, rfl⟩ := sub_ok h2
    unfold scanFlow at h3
    rw [hl', if_pos rfl] at h3
    obtain ⟨⟨l, c'⟩, h4, h3⟩ := Out.bind_eq_ok.1 h3
    injection h3 with h3; injection h3 with h5 h6; subst h5; subst h6
    rw [bind_run h1]
    refine sub_hides (k := fun t c => finish t c) (fun c => swap_finish) (by unfold scanFlow; rw [hl, if_neg (by simp)]) ?_ ?_ h
    · intro t c2 hE'
      obtain ⟨l', h5, -⟩ := scanFlow_lazy hx' hx hv (fun _ => hE) hE'
      rw [h4] at h5
      injection h5 with h5; injection h5 with h5 h6; exact h6.symm
    · intro e hE'
      exact scanFlow_err hx' hx hv (fun _ => hE) hE' h4
  | plain =>
    simp only [run, fetchPlainScalar] at h ⊢
    obtain ⟨a, s0, h1, h⟩ := bind_ok h
    obtain ⟨rfl, rfl⟩ := get_ok h1
    obtain ⟨⟨tok, c⟩, s0, h2, h⟩ := bind_ok h
    obtain ⟨h3, rfl⟩ := sub_ok h2
    unfold scanPlain at h3
    rw [hl', if_pos rfl] at h3
    obtain ⟨⟨l, c'⟩, h4, h3⟩ := Out.bind_eq_ok.1 h3
    injection h3 with h3; injection h3 with h5 h6; subst h5; subst h6
    rw [bind_run h1]
    refine sub_hides (k := fun t c => do
      saveKey
      upd fun sc => { sc with simpleKeyAllowed := false }
      commit c.buf c.stats
      enqueue t c.stats.read) (fun c => swap_plain) (by unfold scanPlain; rw [hl, if_neg (by simp)]) ?_ ?_ h
    · intro t c2 hE'
      obtain ⟨l', h5, -⟩ := scanPlain_lazy hx hx' hv hN hE'
      rw [h4] at h5
      injection h5 with h5; injection h5 with h5 h6; exact h6.symm
    · intro e hE'
      exact scanPlain_err hx' hx hE' h4
  | block fold =>
    simp only [run, fetchBlockScalar] at h ⊢
    obtain ⟨_, s2, h1, h⟩ := bind_ok h
    obtain ⟨_, s3, h2, h⟩ := bind_ok h
    obtain ⟨a, s0, h3, h⟩ := bind_ok h
    obtain ⟨rfl, rfl⟩ := get_ok h3
    obtain ⟨⟨tok, c⟩, s0, h4, h⟩ := bind_ok h
    obtain ⟨h5, rfl⟩ := sub_ok h4
    have e1 := removeKey_ok h1
    have e2 := upd_ok h2
    have e3 : s3.buf = s.buf := by rw [e2, e1]; rfl
    have e4 : s3.out = s.out := by rw [e2, e1]; rfl
    unfold scanBlock at h5
    rw [hl', if_pos rfl] at h5
    obtain ⟨⟨l, c'⟩, h6, h5⟩ := Out.bind_eq_ok.1 h5
    injection h5 with h5; injection h5 with h7 h8; subst h7; subst h8
    obtain ⟨⟨r, hr⟩, -⟩ := hd
    rw [bind_run h1, bind_run h2, bind_run h3]
    have := sub_hides (k := fun t c => do
      commit c.buf c.stats
      enqueue t c.stats.read) (F := scanBlock o (s3.sc.context.level.getD 0) fold) (st := s3.sc.stats)
      (fun c => swap_block) (by unfold scanBlock; rw [hl, if_neg (by simp)]) ?_ ?_ h
    · unfold Hides at this ⊢
      rw [e4] at this; exact this
    · intro t c2 hE'
      obtain ⟨l', t', h5, -, -⟩ := scanBlock_lazy hx hx' (by rw [e3]; exact hv) (by rw [e3, hr]; simp) hE'
      rw [h6] at h5
      injection h5 with h5; injection h5 with h5 h6; exact h6.symm
    · intro e hE'
      exact (scanBlock_err hx hx' (by rw [e3]; exact hv) hE' h6).elim
  | unknown => cases h

include hx hx' hl hl' in
/-- One step. -/
theorem step_hides {base : Str} {s s1 : SS} (hs : Suf base s.buf) (hv : validUtf8 s.buf = true) (hE : NoEsc base) (hN : Narrow base)
    (hd : s.sc.state ≠ .Done) (h : scanNextToken o' s = (.ok (), s1)) : Hides s s1 (scanNextToken o s) := by
  have he : o.extendable = o'.extendable := by rw [hx, hx']
  by_cases hst : s.sc.state = .Start
  · unfold scanNextToken at h ⊢
    obtain ⟨a, s0, h1, h⟩ := bind_ok h
    obtain ⟨rfl, rfl⟩ := get_ok h1
    rw [bind_run h1]
    have hst' : (s.sc.state == .Start) = true := by simpa using hst
    rw [if_pos hst'] at h ⊢
    exact .inl ⟨_, h⟩
  · obtain ⟨s2, h1, h2⟩ := step_cases h hst
    have hst' : ¬ (s.sc.state == .Start) = true := by simpa using hst
    have hp := (closed_rest s.buf s.sc.offset).prepare (P := True) (opts := o') (s := s) (.inl trivial) ⟨hv, ⟨[], rfl⟩, rfl, hd⟩
    have hr := (hp.of_ok h1).1
    obtain ⟨l, ho, hl1⟩ := (Adds.prepare (S := IsTok) (opts := o') (fun _ => ⟨_, rfl⟩)).of_eq h1
    have h1' : prepare o s = (.ok (), s2) := by rw [prepare_flag he]; exact h1
    unfold scanNextToken
    rw [bind_run (m := Scan.get) (a := s) (s1 := s) rfl, if_neg hst', bind_run h1']
    unfold fetchNext
    rw [bind_run (m := Scan.get) (a := s2) (s1 := s2) rfl]
    have lift : ∀ r, Hides s2 s1 r → Hides s s1 r := by
      rintro r (h | h | h | ⟨n, g1, b, g2, g3⟩)
      · exact .inl h
      · exact .inr (.inl h)
      · exact .inr (.inr (.inl h))
      · exact .inr (.inr (.inr ⟨l ++ n, by rw [g1, ho]; simp, b, List.mem_append_right _ g2, g3⟩))
    apply lift
    rcases h2 with ⟨h2, h3⟩ | ⟨h2, h3⟩
    · rw [if_pos (by simpa using h2)]
      exact .inl ⟨_, h3⟩
    · have hnd : s2.sc.state ≠ .Done := hr.2.2.2
      rw [if_neg (by simp [h2, hnd]), cache_whole o hx]
      rw [bind_run (m := SO.lift (.ok ())) (a := ()) (s1 := s2) rfl]
      have hs2 : Suf base s2.buf := hs.trans hr.2.1
      exact run_hides hx hx' hl hl' hr.1 (hE.suf hs2) (hN.suf hs2) h3

/-- A step leaves what was pushed. -/
theorem step_grows (hx : o.extendable = false) {s s1 : SS} (hv : validUtf8 s.buf = true) (hd : s.sc.state ≠ .Done)
    (h : scanNextToken o s = (.ok (), s1)) : ∃ new, s1.out = s.out ++ new := by
  obtain ⟨sc, buf, out⟩ := s
  have h1 := scanNextToken_follows (k := sc.offset) (pre := .same out) (s := ⟨sc, buf, []⟩) (subs_whole o (fun _ _ => rfl) (fun _ => rfl)) trivial
  have h3 := scanNextToken_calm hx ⟨sc, buf, []⟩
  have h4 := (closed_rest buf sc.offset).scanNextToken (P := True) (opts := o) (s := ⟨sc, buf, []⟩) (.inl trivial) ⟨hv, ⟨[], rfl⟩, rfl, hd⟩ hd
  have hg : SS.grow [] sc.offset (.same out) ⟨sc, buf, []⟩ = ⟨sc, buf, out⟩ := by simp [SS.grow]
  unfold Follows at h1
  unfold Holds at h4
  rw [hg, h] at h1
  generalize scanNextToken o ⟨sc, buf, []⟩ = r at h1 h3 h4
  obtain ⟨x, s2⟩ := r
  cases x with
  | ok u =>
    obtain ⟨_, h1, -, -⟩ := h1
    injection h1 with _ h1
    exact ⟨s2.out, by rw [h1]; simp [SS.grow]⟩
  | err e =>
    rcases h1 with h1 | h1
    · exact absurd (by rw [h1]) h3
    · injection h1 with h1; cases h1
  | panic => injection h1 with h1; cases h1
  | diverge => exact h4.elim

/-- Where a step ends, the scanner can go on. -/
theorem step_at {base : Str} {sc : Scanner} {out : List TokenEntry} {s1 : SS} (hA : At base sc) (hd : sc.state ≠ .Done)
    (h : scanNextToken o ⟨sc, base.drop sc.offset, out⟩ = (.ok (), s1)) : At base { s1.sc with offset := base.length - s1.buf.length } := by
  obtain ⟨hv1, w, hw⟩ := (step_rest (o := o) (s := ⟨sc, base.drop sc.offset, out⟩) hA.2 hd).1 s1 h
  have hw' : Suf base s1.buf := (Suf.drop base sc.offset).trans ⟨w, hw⟩
  refine ⟨boundary_of_drop hv1 hw', ?_⟩
  show validUtf8 (base.drop (base.length - s1.buf.length)) = true
  rw [hw'.drop_eq]; exact hv1

/-- The loop leaves what was pushed. -/
theorem scanLoop_grows (hx : o.extendable = false) {base : Str} : ∀ fuel (sc sc1 : Scanner) (out o1 : List TokenEntry), At base sc →
    scanLoop o base fuel sc out = (.ok (), sc1, o1) → ∃ new, o1 = out ++ new := by
  intro fuel
  induction fuel with
  | zero => intro sc sc1 out o1 _ h; cases h
  | succ fuel ih =>
    intro sc sc1 out o1 hA h
    rw [scanLoop] at h
    by_cases hc : (decide (sc.state ≠ .Done) && (out.isEmpty || sc.keyPossible)) = true
    · rw [if_pos hc, if_pos hA.1] at h
      have hd : sc.state ≠ .Done := by
        rw [Bool.and_eq_true] at hc; exact of_decide_eq_true hc.1
      have hg := fun s1 => step_grows (s := ⟨sc, base.drop sc.offset, out⟩) (s1 := s1) hx hA.2 hd
      have ha := fun s1 => step_at (o := o) (out := out) (s1 := s1) hA hd
      generalize scanNextToken o ⟨sc, base.drop sc.offset, out⟩ = r at h hg ha
      obtain ⟨x, s1⟩ := r
      cases x with
      | ok u =>
        obtain ⟨n, hn⟩ := hg s1 rfl
        obtain ⟨n', hn'⟩ := ih _ _ _ _ (ha s1 rfl) h
        exact ⟨n ++ n', by rw [hn', hn]; simp⟩
      | err e =>
        simp only at h
        split at h <;> cases h
      | panic => cases h
      | diverge => cases h
    · rw [if_neg hc] at h
      injection h with _ h; injection h with h1 h2; subst h1 h2
      exact ⟨[], by simp⟩

include hx hx' hl hl' in
theorem scanLoop_hides {base : Str} (hE : NoEsc base) (hN : Narrow base) : ∀ fuel (sc sc1 : Scanner) (out out' o1' : List TokenEntry), At base sc →
    Pairs (EvAt base) out out' → scanLoop o' base fuel sc out' = (.ok (), sc1, o1') →
    (scanLoop o base fuel sc out).1 = .ok () ∨ (scanLoop o base fuel sc out).1 = .panic ∨ (scanLoop o base fuel sc out).1 = .diverge ∨
      ∃ b ∈ o1', Bad b := by
  intro fuel
  induction fuel with
  | zero => intro sc sc1 out out' o1 _ _ h; cases h
  | succ fuel ih =>
    intro sc sc1 out out' o1' hA hP h
    rw [scanLoop] at h ⊢
    rw [pairs_isEmpty hP] at h
    by_cases hc : (decide (sc.state ≠ .Done) && (out.isEmpty || sc.keyPossible)) = true
    · rw [if_pos hc, if_pos hA.1] at h ⊢
      have hd : sc.state ≠ .Done := by
        rw [Bool.and_eq_true] at hc; exact of_decide_eq_true hc.1
      have hg := fun s1 => step_grows (s := ⟨sc, base.drop sc.offset, out'⟩) (s1 := s1) hx' hA.2 hd
      have ha := fun s1 => step_at (o := o') (out := out') (s1 := s1) hA hd
      have hsh := fun sc1 buf1 new hq => step_shift (o := o') (sc := sc) (sc1 := sc1) (buf := base.drop sc.offset) (buf1 := buf1) (out := out') (new := new)
        hx' hA.2 hd hq out
      generalize scanNextToken o' ⟨sc, base.drop sc.offset, out'⟩ = r at h hg ha hsh
      obtain ⟨x, sc', buf', outs'⟩ := r
      cases x with
      | ok u =>
        simp only at h
        obtain ⟨new', hn⟩ := hg _ rfl
        simp only at hn
        subst hn
        have h1 := hsh _ _ _ rfl
        have hh := step_hides (base := base) hx hx' hl hl' (s := ⟨sc, base.drop sc.offset, out⟩) (Suf.drop _ _) hA.2 hE hN hd h1
        have hb := fun s1 => step_both (base := base) hx hx' hl hl' (s := ⟨sc, base.drop sc.offset, out⟩) (s1 := s1)
          (Suf.drop _ _) hA.2 hE hN hd
        generalize scanNextToken o ⟨sc, base.drop sc.offset, out⟩ = r at hh hb ⊢
        obtain ⟨x, s1⟩ := r
        rcases hh with ⟨s2, hh⟩ | hh | hh | ⟨new, hh, b, hb1, hb2⟩
        · injection hh with hh1 hh2; subst hh1 hh2
          obtain ⟨s1', g1, g2, g3, n, n', g4, g5, g6⟩ := hb s1 rfl
          rw [h1] at g1
          injection g1 with _ g1
          subst g1
          simp only at g2 g3 g4 g5 ⊢
          have := List.append_cancel_left g5
          subst this g3
          have e : ({ s1.sc with offset := base.length - s1.buf.length } : Scanner) = { sc' with offset := base.length - s1.buf.length } := by
            rw [← g2]
          rw [e]
          have ha' := ha _ rfl
          exact ih _ _ _ _ _ ha' (by rw [g4]; exact evAll_append hP g6) h
        · simp only at hh; subst hh; exact .inr (.inl rfl)
        · simp only at hh; subst hh; exact .inr (.inr (.inl rfl))
        · have := List.append_cancel_left hh
          subst this
          obtain ⟨k, hk⟩ := scanLoop_grows hx' _ _ _ _ _ (ha _ rfl) h
          exact .inr (.inr (.inr ⟨b, by rw [hk]; simp [hb1], hb2⟩))
      | err e =>
        simp only at h
        split at h <;> cases h
      | panic => cases h
      | diverge => cases h
    · rw [if_neg hc]
      exact .inl rfl

/-! ## The reader -/

variable {R : TokenEntry → TokenEntry → Prop} {σ : Type} {I : σ → Prop} {d d' : Drive σ}

/-- Where the second drive succeeds, the first does, or panics, or the second produced something bad. -/
def HideDrive (B : TokenEntry → Prop) (I : σ → Prop) (d d' : Drive σ) : Prop := ∀ s, I s → ∀ out' s1', d' s = (.ok (), out', s1') →
  (d s).1 = .ok () ∨ (d s).1 = .panic ∨ (d s).1 = .diverge ∨ ∃ b ∈ out', B b

/-- A call that fails has asked the source. -/
theorem op_asked {op : ROp} {p : PeekReader σ} (h : ∀ t, (op.run d p).1 ≠ .ok t) :
    p.peeked = none ∧ p.reader.queue.isEmpty = true ∧ p.reader.isExhausted = false ∧ (op.run d p).1.void = (d p.reader.src).1 := by
  have key : ∀ (pk : p.peeked = none) (k : PeekReader σ → Out ReaderError (Option TokenEntry) × PeekReader σ),
      (∀ q, ∃ t, (k q).1 = .ok t) →
      (∀ t, (if !p.reader.isExhausted then
        match p.takeNext d with
        | (.ok (), p) => k p
        | (.err e, p) => (.err e, p)
        | (.panic, p) => (.panic, p)
        | (.diverge, p) => (.diverge, p)
      else (.ok none, p)).1 ≠ .ok t) → p.peeked = none ∧ p.reader.queue.isEmpty = true ∧ p.reader.isExhausted = false ∧
      (if !p.reader.isExhausted then
        match p.takeNext d with
        | (.ok (), p) => k p
        | (.err e, p) => (.err e, p)
        | (.panic, p) => (.panic, p)
        | (.diverge, p) => (.diverge, p)
      else (.ok none, p)).1.void = (d p.reader.src).1 := by
    intro pk k hk h
    cases hx : p.reader.isExhausted with
    | true => rw [hx] at h; exact absurd rfl (h none)
    | false =>
      rw [hx] at h
      simp only [Bool.not_false, ↓reduceIte] at h ⊢
      unfold PeekReader.takeNext at h ⊢
      simp only [pk, Option.isSome_none, Bool.false_eq_true, ↓reduceIte] at h ⊢
      cases hq : p.reader.queue.isEmpty with
      | false =>
        simp only [hq, Bool.false_eq_true, ↓reduceIte] at h
        obtain ⟨t, ht⟩ := hk { peeked := p.reader.queue.pop.1, reader := { p.reader with queue := p.reader.queue.pop.2 } }
        exact absurd ht (h t)
      | true =>
        simp only [hq, ↓reduceIte, Reader.scanTokens] at h ⊢
        refine ⟨trivial, trivial, trivial, ?_⟩
        generalize d p.reader.src = x at h ⊢
        obtain ⟨x, b, s⟩ := x
        cases x with
        | ok u =>
          simp only at h
          obtain ⟨t, ht⟩ := hk _
          exact absurd ht (h t)
        | err e => rfl
        | panic => rfl
        | diverge => rfl
  cases op with
  | peek =>
    simp only [ROp.run, PeekReader.peek] at h ⊢
    cases hp : p.peeked with
    | some e => rw [hp] at h; exact absurd rfl (h (some e))
    | none =>
      simp only [hp] at h ⊢
      have := key hp (fun q => (.ok q.peeked, q)) (fun q => ⟨_, rfl⟩) h
      exact ⟨trivial, this.2⟩
  | pop =>
    simp only [ROp.run, PeekReader.pop] at h ⊢
    cases hp : p.peeked with
    | some e => rw [hp] at h; exact absurd rfl (h (some e))
    | none =>
      simp only [hp] at h ⊢
      have := key hp (fun q => (.ok q.peeked, { q with peeked := none })) (fun q => ⟨_, rfl⟩) h
      exact ⟨trivial, this.2⟩

/-- A call that asks the source hands out or keeps all it got. -/
theorem op_filled {op : ROp} {q q1 : PeekReader σ} {t : Option TokenEntry} (hp : q.peeked = none) (hq : q.reader.queue.isEmpty = true)
    (hx : q.reader.isExhausted = false) (h : op.run d' q = (.ok t, q1)) :
    ∃ out s1, d' q.reader.src = (.ok (), out, s1) ∧ (∃ l, q1.reader.queue.Rep l) ∧ handed [(op, .ok t)] ++ waiting q1 = deliver out := by
  have hrep : q.reader.queue.Rep [] := by
    have : q.reader.queue.heap = [] := by simpa [Queue.isEmpty] using hq
    exact ⟨[], by rw [this], .nil, by simp, rfl⟩
  have key : ∃ out s1 q2, d' q.reader.src = (.ok (), out, s1) ∧ q.takeNext d' = (.ok (), q2) ∧ (∃ l, q2.reader.queue.Rep l) ∧ waiting q2 = deliver out := by
    have hok : (q.takeNext d').1 = .ok () := by
      cases op <;> simp only [ROp.run, PeekReader.peek, PeekReader.pop, hp, hx, Bool.not_false, ↓reduceIte] at h <;>
      · generalize q.takeNext d' = r at h ⊢
        obtain ⟨x, q2⟩ := r
        cases x <;> first | rfl | cases h
    unfold PeekReader.takeNext at hok ⊢
    simp only [hp, hq, Option.isSome_none, Bool.false_eq_true, ↓reduceIte, Reader.scanTokens] at hok ⊢
    generalize d' q.reader.src = x at hok ⊢
    obtain ⟨x, b, s⟩ := x
    cases x with
    | ok u =>
      have hr := Queue.rep_foldl hrep b
      rw [List.nil_append] at hr
      obtain ⟨l', -, hl'⟩ := Queue.rep_pop hr
      refine ⟨b, s, _, rfl, rfl, ⟨l', hl'⟩, ?_⟩
      unfold waiting
      simp only
      rw [← intoSortedVec_pop]
      exact deliver_unique (Queue.drain_stable _ _ _ hr (by rw [hr.len]; omega))
    | err e => cases hok
    | panic => cases hok
    | diverge => cases hok
  obtain ⟨out, s1, q2, h1, h2, h3, h4⟩ := key
  refine ⟨out, s1, h1, ?_⟩
  cases op with
  | peek =>
    simp only [ROp.run, PeekReader.peek, hp, hx, Bool.not_false, ↓reduceIte, h2] at h
    injection h with _ h; subst h
    exact ⟨h3, by simpa [handed] using h4⟩
  | pop =>
    simp only [ROp.run, PeekReader.pop, hp, hx, Bool.not_false, ↓reduceIte, h2] at h
    injection h with h' h; injection h' with h'; subst h h'
    refine ⟨h3, ?_⟩
    rw [← h4]
    unfold waiting
    cases q2.peeked <;> simp [handed]

/-- Where a pop finds no token, none is waiting. -/
theorem pop_none {q q1 : PeekReader σ} (h : q.pop d = (.ok none, q1)) : waiting q1 = [] := by
  have he : ∀ {u : Queue TokenEntry}, u.pop.1 = none → u.pop.2.intoSortedVec = [] := by
    intro u hu
    unfold Queue.pop at hu ⊢
    cases hp : Queue.popLeast u.heap with
    | none =>
      simp only
      exact intoSortedVec_empty (by simp [Queue.isEmpty, Queue.popLeast_none hp])
    | some x => rw [hp] at hu; simp at hu
  unfold PeekReader.pop at h
  cases hp : q.peeked with
  | some e => rw [hp] at h; simp at h
  | none =>
    rw [hp] at h
    simp only at h
    cases hx : q.reader.isExhausted with
    | true =>
      simp only [hx, Bool.not_true, Bool.false_eq_true, ↓reduceIte, Prod.mk.injEq, true_and] at h
      subst h
      simp only [Reader.isExhausted, Bool.and_eq_true] at hx
      simp [waiting, hp, intoSortedVec_empty hx.2]
    | false =>
      simp only [hx, Bool.not_false, ↓reduceIte] at h
      unfold PeekReader.takeNext at h
      simp only [hp, Option.isSome_none, Bool.false_eq_true, ↓reduceIte] at h
      generalize (if q.reader.queue.isEmpty = true then q.reader.scanTokens d else (.ok (), q.reader)) = r at h
      obtain ⟨x, r⟩ := r
      cases x with
      | ok u =>
        simp only [Prod.mk.injEq, Out.ok.injEq] at h
        obtain ⟨h1, rfl⟩ := h
        simp [waiting, he h1]
      | err e => simp at h
      | panic => simp at h
      | diverge => simp at h

theorem mem_deliver {b : TokenEntry} {l : List TokenEntry} (h : b ∈ l) : b ∈ deliver l := (deliver_stable l).perm.mem_iff.2 h

/-- Histories: the first has no failing calls, or the second got something bad. -/
theorem runOps_hides {B : TokenEntry → Prop} (hR : Placed R) (hd : EvDrive R I d d') (hh : HideDrive B I d d') (ops : List ROp)
    {p q : PeekReader σ} (h : EvReader R I p q) (hn : ∀ x ∈ (runOps d ops p).1, x.2 ≠ .panic ∧ x.2 ≠ .diverge)
    (ha : AllOk (runOps d' ops q).1) :
    AllOk (runOps d ops p).1 ∨ ∃ b ∈ handed (runOps d' ops q).1 ++ waiting (runOps d' ops q).2, B b := by
  induction ops generalizing p q with
  | nil => exact .inl fun x hx => by cases hx
  | cons op ops ih =>
    simp only [runOps] at hn ha ⊢
    have hop := fun t p1 => op_both (t := t) (p1 := p1) hR hd op h
    have has := op_asked (d := d) (op := op) (p := p)
    obtain ⟨t', ht'⟩ := ha _ (List.mem_cons_self ..)
    simp only at ht'
    have hn1 := hn _ (List.mem_cons_self ..)
    simp only at hn1
    generalize op.run d p = x at hop hn hn1 has ⊢
    obtain ⟨x, p1⟩ := x
    cases x with
    | ok t =>
      obtain ⟨t'', q1, h1, h2, h3⟩ := hop t p1 rfl
      rw [h1] at ha ⊢
      rcases ih h3 (fun x hx => hn x (List.mem_cons_of_mem _ hx)) (fun x hx => ha x (List.mem_cons_of_mem _ hx)) with g | ⟨b, g1, g2⟩
      · left
        intro x hx
        rcases List.mem_cons.1 hx with rfl | hx
        · exact ⟨_, rfl⟩
        · exact g x hx
      · right
        refine ⟨b, ?_, g2⟩
        rw [handed_cons]
        simp only [List.mem_append] at g1 ⊢
        rcases g1 with g1 | g1
        · exact .inl (.inr g1)
        · exact .inr g1
    | err e =>
      right
      obtain ⟨a1, a2, a3, a4⟩ := has (fun t h => by cases h)
      have hpk : q.peeked = none := by
        have := h.peeked
        rw [a1] at this
        generalize q.peeked = z at this ⊢
        cases this; rfl
      obtain ⟨out, s1, b1, b2, b3⟩ := op_filled (d' := d') (op := op) (q := q) (t := t') (q1 := (op.run d' q).2) hpk (by rw [h.queue.isEmpty]; exact a2)
        (by rw [isExhausted_both h]; exact a3) (by rw [← ht'])
      rw [h.src] at b1
      have hbad : ∃ b ∈ out, B b := by
        rcases hh _ h.inv _ _ b1 with g | g | g | g
        · rw [← a4] at g; cases g
        · rw [← a4] at g; cases g
        · rw [← a4] at g; cases g
        · exact g
      obtain ⟨b, g1, g2⟩ := hbad
      have hk := kept_run (drive := d') (K := fun _ => True) (J := fun _ D => b ∈ D) (ops := ops) (p := (op.run d' q).2)
        (out := handed [(op, .ok t')]) (fun s D o c s' hD _ _ => List.mem_append_left _ hD) ⟨b2, by
          rw [List.append_assoc]
          show b ∈ _ ++ waiting _
          rw [b3]; exact mem_deliver g1⟩ (fun _ _ => trivial)
      refine ⟨b, ?_, g2⟩
      rw [handed_cons, ht']
      have := hk.2
      rw [List.append_assoc _ (Option.toList _)] at this
      exact this
    | panic => exact absurd rfl hn1.1
    | diverge => exact absurd rfl hn1.2

/-- Histories of a text, with and without evaluating scalars. -/
theorem history_hides {text : List Char} (hE : NoEsc (utf8 text)) (hN : Narrow (utf8 text)) {x y : Bool} (ops : List ROp)
    (hn : ∀ r ∈ history ⟨x, false⟩ text ops, r.2 ≠ .panic ∧ r.2 ≠ .diverge) (ha : AllOk (history ⟨y, true⟩ text ops)) :
    AllOk (history ⟨x, false⟩ text ops) ∨ ∃ b ∈ handed (history ⟨y, true⟩ text ops) ++ waiting (readerAfter ⟨y, true⟩ text ops), Bad b := by
  refine runOps_hides (R := EvAt (utf8 text)) (I := At (utf8 text)) (fun a b h => h.1) ?_ ?_ ops ⟨.none, ⟨.nil, rfl⟩, rfl, rfl, ?_⟩ hn ha
  · exact drive_both hE hN
  · intro sc hA out sc1 h
    unfold borrowDrive at h ⊢
    have hs := fun sc1 o1 => scanLoop_hides (o := ⟨false, false⟩) (o' := ⟨false, true⟩) rfl rfl rfl rfl hE hN ((utf8 text).length + 3) sc sc1 [] [] o1 hA .nil
    unfold scanTokens at h ⊢
    generalize scanLoop ⟨false, true⟩ (utf8 text) ((utf8 text).length + 3) sc [] = r at h hs
    obtain ⟨r, sc2, o2⟩ := r
    cases r with
    | ok u =>
      have h1 := hs sc2 o2 rfl
      simp only at h
      injection h with _ h; injection h with h4 h5; subst h4 h5
      generalize scanLoop ⟨false, false⟩ (utf8 text) ((utf8 text).length + 3) sc [] = r at h1 ⊢
      obtain ⟨r, sc3, o3⟩ := r
      simp only at h1 ⊢
      rcases h1 with rfl | rfl | rfl | h1
      · exact .inl rfl
      · exact .inr (.inl rfl)
      · exact .inr (.inr (.inl rfl))
      · exact .inr (.inr (.inr h1))
    | err e => cases h
    | panic => cases h
    | diverge => cases h
  · exact ⟨by show isBoundary _ 0 = true; unfold isBoundary; simp, (validUtf8_iff _).2 ⟨text, rfl⟩⟩

end Yary.Deferred
