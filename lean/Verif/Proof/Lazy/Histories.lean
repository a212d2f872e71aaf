import Verif.Proof.Lazy.Step
import Verif.Proof.Chunk.Histories

/-! # Histories with and without evaluating scalars -/

namespace Yary.Deferred

open Chunk Spec Scan

variable {o o' : SFlags} (hx : o.extendable = false) (hx' : o'.extendable = false) (hl : o.lazy = false) (hl' : o'.lazy = true)

/-- What was pushed before makes no difference. -/
theorem step_shift (hx : o.extendable = false) {sc sc1 : Scanner} {buf buf1 : Str} {out new : List TokenEntry} (hv : validUtf8 buf = true) (hd : sc.state ≠ .Done)
    (h : scanNextToken o ⟨sc, buf, out⟩ = (.ok (), ⟨sc1, buf1, out ++ new⟩)) (out' : List TokenEntry) :
    scanNextToken o ⟨sc, buf, out'⟩ = (.ok (), ⟨{ sc1 with offset := sc.offset }, buf1, out' ++ new⟩) := by
  have hg : ∀ pre, SS.grow [] sc.offset (.same pre) ⟨sc, buf, []⟩ = ⟨sc, buf, pre⟩ := by intro pre; simp [SS.grow]
  have h1 := scanNextToken_follows (k := sc.offset) (pre := .same out) (s := ⟨sc, buf, []⟩) (subs_whole o (fun _ _ => rfl) (fun _ => rfl)) trivial
  have h2 := scanNextToken_follows (k := sc.offset) (pre := .same out') (s := ⟨sc, buf, []⟩) (subs_whole o (fun _ _ => rfl) (fun _ => rfl)) trivial
  have h3 := scanNextToken_calm hx ⟨sc, buf, []⟩
  have h4 := (closed_rest buf sc.offset).scanNextToken (P := True) (opts := o) (s := ⟨sc, buf, []⟩) (.inl trivial) ⟨hv, ⟨[], rfl⟩, rfl, hd⟩ hd
  unfold Follows at h1 h2
  unfold Holds at h4
  rw [hg, h] at h1
  rw [hg] at h2
  generalize scanNextToken o ⟨sc, buf, []⟩ = r at h1 h2 h3 h4
  obtain ⟨x, s1⟩ := r
  cases x with
  | ok u =>
    obtain ⟨_, h1, -, -⟩ := h1
    obtain ⟨_, h2, -, -⟩ := h2
    rw [h2]
    injection h1 with _ h1
    obtain ⟨sc2, buf2, out2⟩ := s1
    simp only [SS.grow, SS.mk.injEq, Pre.on_same] at h1
    obtain ⟨e1, e2, e3⟩ := h1
    rw [List.append_cancel_left e3, e1]
    simp only [SS.grow, Pre.on_same]
    rw [e2]
  | err e =>
    rcases h1 with h1 | h1
    · exact absurd (by rw [h1]) h3
    · injection h1 with h1; cases h1
  | panic => injection h1 with h1; cases h1
  | diverge => exact h4.elim

/-- The scanner is between two characters of the text. -/
def At (base : Str) (sc : Scanner) : Prop := isBoundary base sc.offset = true ∧ validUtf8 (base.drop sc.offset) = true

include hx hx' hl hl' in
theorem scanLoop_both {base : Str} (hE : NoEsc base) (hN : Narrow base) : ∀ fuel (sc sc1 : Scanner) (out out' o1 : List TokenEntry), At base sc →
    Pairs (EvAt base) out out' → scanLoop o base fuel sc out = (.ok (), sc1, o1) →
    ∃ o1', scanLoop o' base fuel sc out' = (.ok (), sc1, o1') ∧ Pairs (EvAt base) o1 o1' ∧ At base sc1 := by
  intro fuel
  induction fuel with
  | zero => intro sc sc1 out out' o1 _ _ h; cases h
  | succ fuel ih =>
    intro sc sc1 out out' o1 hA hP h
    rw [scanLoop] at h ⊢
    rw [pairs_isEmpty hP]
    by_cases hc : (decide (sc.state ≠ .Done) && (out.isEmpty || sc.keyPossible)) = true
    · rw [if_pos hc, if_pos hA.1] at h ⊢
      have hd : sc.state ≠ .Done := by
        rw [Bool.and_eq_true] at hc; exact of_decide_eq_true hc.1
      have hb := fun s1 => step_both (base := base) hx hx' hl hl' (s := ⟨sc, base.drop sc.offset, out⟩) (s1 := s1)
        (Suf.drop _ _) hA.2 hE hN hd
      have hr := (step_rest (o := o) (s := ⟨sc, base.drop sc.offset, out⟩) hA.2 hd).1
      have hro : ∀ s1, scanNextToken o ⟨sc, base.drop sc.offset, out⟩ = (.ok (), s1) → s1.sc.offset = sc.offset := by
        intro s1 h1
        have h4 := (closed_rest (base.drop sc.offset) sc.offset).scanNextToken (P := True) (opts := o) (s := ⟨sc, base.drop sc.offset, out⟩) (.inl trivial)
          ⟨hA.2, ⟨[], rfl⟩, rfl, hd⟩ hd
        unfold Holds at h4
        rw [h1] at h4
        rcases h4 with ⟨h4, -⟩ | ⟨-, h4⟩
        · exact h4.2.2.1
        · obtain @⟨s2, h2, -⟩ := h4
          exact h2.2.2.1
      generalize scanNextToken o ⟨sc, base.drop sc.offset, out⟩ = r at h hb hr hro
      obtain ⟨x, s1⟩ := r
      cases x with
      | ok u =>
        obtain ⟨s1', h1, e1, e2, new, new', e3, e4, hn⟩ := hb s1 rfl
        obtain ⟨hv1, w, hw⟩ := hr s1 rfl
        have hoff := hro s1 rfl
        obtain ⟨sc', buf', outs'⟩ := s1'
        simp only at e1 e2 e4 h ⊢
        subst e1 e2 e4
        have h2 := step_shift hx' hA.2 hd h1 out'
        rw [h2]
        simp only
        have h3 : ({ s1.sc with offset := sc.offset } : Scanner) = s1.sc := by rw [← hoff]
        have hw' : Suf base s1.buf := (Suf.drop base sc.offset).trans ⟨w, hw⟩
        refine ih _ _ _ _ _ ⟨boundary_of_drop hv1 hw', ?_⟩ (by rw [e3]; exact evAll_append hP hn) h
        show validUtf8 (base.drop (base.length - s1.buf.length)) = true
        rw [hw'.drop_eq]; exact hv1
      | err e =>
        simp only at h
        split at h <;> cases h
      | panic => cases h
      | diverge => cases h
    · rw [if_neg hc] at h ⊢
      injection h with _ h; injection h with h1 h2; subst h1 h2
      exact ⟨out', rfl, hP, hA⟩

/-! ## The reader -/

variable {R : TokenEntry → TokenEntry → Prop} {σ : Type} {I : σ → Prop} {d d' : Drive σ}

/-- Readers equally far, with related tokens at hand. -/
structure EvReader (R : TokenEntry → TokenEntry → Prop) (I : σ → Prop) (p q : PeekReader σ) : Prop where
  peeked : EvOpt R p.peeked q.peeked
  queue : EvQueue R p.reader.queue q.reader.queue
  exhausted : q.reader.exhausted = p.reader.exhausted
  src : q.reader.src = p.reader.src
  inv : I p.reader.src

/-- Where the first drive succeeds, so does the second, with related tokens. -/
def EvDrive (R : TokenEntry → TokenEntry → Prop) (I : σ → Prop) (d d' : Drive σ) : Prop := ∀ s, I s → ∀ out s1, d s = (.ok (), out, s1) →
  I s1 ∧ ∃ out', d' s = (.ok (), out', s1) ∧ Pairs R out out'

theorem takeNext_both (hR : Placed R) (hd : EvDrive R I d d') {p q p1 : PeekReader σ} (h : EvReader R I p q)
    (h1 : p.takeNext d = (.ok (), p1)) : ∃ q1, q.takeNext d' = (.ok (), q1) ∧ EvReader R I p1 q1 := by
  unfold PeekReader.takeNext at h1 ⊢
  rw [h.peeked.isSome]
  by_cases hp : p.peeked.isSome = true
  · rw [if_pos hp] at h1 ⊢
    injection h1 with _ h1; subst h1
    exact ⟨q, rfl, h⟩
  · rw [if_neg hp] at h1 ⊢
    rw [h.queue.isEmpty]
    by_cases hq : p.reader.queue.isEmpty = true
    · simp only [if_pos hq] at h1 ⊢
      unfold Reader.scanTokens at h1 ⊢
      rw [h.src]
      have hdr := hd p.reader.src h.inv
      generalize d p.reader.src = x at h1 hdr
      obtain ⟨x, out, s⟩ := x
      cases x with
      | ok u =>
        obtain ⟨hi, out', h2, h3⟩ := hdr out s rfl
        rw [h2]
        simp only at h1 ⊢
        injection h1 with _ h1; subst h1
        have hqq := h.queue.pushAll h3
        refine ⟨_, rfl, (hqq.pop hR).1, (hqq.pop hR).2, ?_, rfl, hi⟩
        simp only [hqq.len, h.queue.len]
      | err e => cases h1
      | panic => cases h1
      | diverge => cases h1
    · simp only [if_neg hq] at h1 ⊢
      injection h1 with _ h1; subst h1
      exact ⟨_, rfl, (h.queue.pop hR).1, (h.queue.pop hR).2, h.exhausted, h.src, h.inv⟩

theorem isExhausted_both {p q : PeekReader σ} (h : EvReader R I p q) : q.reader.isExhausted = p.reader.isExhausted := by
  unfold Reader.isExhausted
  rw [h.exhausted, h.queue.isEmpty]

theorem op_both (hR : Placed R) (hd : EvDrive R I d d') (op : ROp) {p q p1 : PeekReader σ} {t : Option TokenEntry} (h : EvReader R I p q)
    (h1 : op.run d p = (.ok t, p1)) : ∃ t' q1, op.run d' q = (.ok t', q1) ∧ EvOpt R t t' ∧ EvReader R I p1 q1 := by
  have hpk := h.peeked
  have hex := isExhausted_both h
  have htk := fun p1 => takeNext_both (p1 := p1) hR hd h
  cases op with
  | peek =>
    simp only [ROp.run, PeekReader.peek] at h1 ⊢
    generalize hp : p.peeked = a at hpk h1
    generalize hq : q.peeked = b at hpk ⊢
    cases hpk with
    | some hr =>
      simp only at h1 ⊢
      injection h1 with h1 h2; injection h1 with h1; subst h1 h2
      exact ⟨_, _, rfl, .some hr, h⟩
    | none =>
      simp only at h1 ⊢
      rw [hex]
      by_cases hc : (!p.reader.isExhausted) = true
      · rw [if_pos hc] at h1 ⊢
        generalize p.takeNext d = x at h1 htk
        obtain ⟨x, p2⟩ := x
        cases x with
        | ok u =>
          obtain ⟨q2, h2, h3⟩ := htk p2 rfl
          rw [h2]
          simp only at h1 ⊢
          injection h1 with h1 h4; injection h1 with h1; subst h1 h4
          exact ⟨_, _, rfl, h3.peeked, h3⟩
        | err e => cases h1
        | panic => cases h1
        | diverge => cases h1
      · rw [if_neg hc] at h1 ⊢
        injection h1 with h1 h4; injection h1 with h1; subst h1 h4
        exact ⟨_, _, rfl, .none, h⟩
  | pop =>
    simp only [ROp.run, PeekReader.pop] at h1 ⊢
    generalize hp : p.peeked = a at hpk h1
    generalize hq : q.peeked = b at hpk ⊢
    cases hpk with
    | some hr =>
      simp only at h1 ⊢
      injection h1 with h1 h2; injection h1 with h1; subst h1 h2
      exact ⟨_, _, rfl, .some hr, .none, h.queue, h.exhausted, h.src, h.inv⟩
    | none =>
      simp only at h1 ⊢
      rw [hex]
      by_cases hc : (!p.reader.isExhausted) = true
      · rw [if_pos hc] at h1 ⊢
        generalize p.takeNext d = x at h1 htk
        obtain ⟨x, p2⟩ := x
        cases x with
        | ok u =>
          obtain ⟨q2, h2, h3⟩ := htk p2 rfl
          rw [h2]
          simp only at h1 ⊢
          injection h1 with h1 h4; injection h1 with h1; subst h1 h4
          exact ⟨_, _, rfl, h3.peeked, .none, h3.queue, h3.exhausted, h3.src, h3.inv⟩
        | err e => cases h1
        | panic => cases h1
        | diverge => cases h1
      · rw [if_neg hc] at h1 ⊢
        injection h1 with h1 h4; injection h1 with h1; subst h1 h4
        exact ⟨_, _, rfl, .none, h⟩

theorem runOps_both (hR : Placed R) (hd : EvDrive R I d d') (ops : List ROp) {p q : PeekReader σ} (h : EvReader R I p q) :
    Tracks R (runOps d ops p).1 (runOps d' ops q).1 := by
  induction ops generalizing p q with
  | nil => exact .nil
  | cons op ops ih =>
    simp only [runOps]
    have hop := fun t p1 => op_both (t := t) (p1 := p1) hR hd op h
    generalize op.run d p = x at hop
    obtain ⟨x, p1⟩ := x
    cases x with
    | ok t =>
      obtain ⟨t', q1, h1, h2, h3⟩ := hop t p1 rfl
      rw [h1]
      cases h2 with
      | none => exact .none (ih h3)
      | some hr => exact .token hr (ih h3)
    | err e => exact .fails fun t h => by cases h
    | panic => exact .fails fun t h => by cases h
    | diverge => exact .fails fun t h => by cases h

/-- The sources of a text, with and without evaluating scalars. -/
theorem drive_both {text : List Char} (hE : NoEsc (utf8 text)) (hN : Narrow (utf8 text)) {x y : Bool} :
    EvDrive (EvAt (utf8 text)) (At (utf8 text)) (borrowDrive ⟨x, false⟩ (utf8 text)) (borrowDrive ⟨y, true⟩ (utf8 text)) := by
  intro sc hA out sc1 h
  unfold borrowDrive at h ⊢
  have hs := fun sc1 o1 => scanLoop_both (o := ⟨false, false⟩) (o' := ⟨false, true⟩) rfl rfl rfl rfl hE hN ((utf8 text).length + 3) sc sc1 [] [] o1 hA .nil
  unfold scanTokens at h ⊢
  generalize scanLoop ⟨false, false⟩ (utf8 text) ((utf8 text).length + 3) sc [] = r at h hs
  obtain ⟨r, sc2, o2⟩ := r
  cases r with
  | ok u =>
    obtain ⟨o1', h1, h2, h3⟩ := hs sc2 o2 rfl
    rw [h1]
    simp only at h ⊢
    injection h with _ h; injection h with h4 h5; subst h4 h5
    exact ⟨h3, o1', rfl, h2⟩
  | err e => cases h
  | panic => cases h
  | diverge => cases h

theorem at_start (text : List Char) : At (utf8 text) freshReader.reader.src :=
  ⟨by show isBoundary _ 0 = true; unfold isBoundary; simp, (validUtf8_iff _).2 ⟨text, rfl⟩⟩

/-- Histories of a text, with and without evaluating scalars. -/
theorem history_both {text : List Char} (hE : NoEsc (utf8 text)) (hN : Narrow (utf8 text)) {x y : Bool} (ops : List ROp) :
    Tracks (EvAt (utf8 text)) (history ⟨x, false⟩ text ops) (history ⟨y, true⟩ text ops) :=
  runOps_both (I := At (utf8 text)) (fun a b h => h.1) (drive_both hE hN) ops ⟨.none, ⟨.nil, rfl⟩, rfl, rfl, at_start text⟩

theorem tracks_mono {R S : TokenEntry → TokenEntry → Prop} (hRS : ∀ a b, R a b → S a b) {h h' : List (ROp × Out ReaderError (Option TokenEntry))}
    (ht : Tracks R h h') : Tracks S h h' := by
  induction ht with
  | nil => exact .nil
  | token he _ ih => exact .token (hRS _ _ he) ih
  | none _ ih => exact .none ih
  | fails hx => exact .fails hx

end Yary.Deferred
