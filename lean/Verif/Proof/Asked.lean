import Verif.Proof.Scan.Token
import Verif.Proof.Deliver
import Verif.Proof.Count
import Verif.Model.Scan.Owned
import Verif.Props.Content

/-! # Scalars are deferred exactly if that was asked for -/

namespace Yary.Asked

open Spec

variable {opts : SFlags} {α β : Type} {S : TokenEntry → Prop}

/-- Scalars are evaluated if `lazy` is `false`, and deferred if it is `true`. -/
def As (lazy : Bool) (e : TokenEntry) : Prop :=
  (∀ v st, e.wrap = .Token (.Scalar v st) → lazy = false) ∧ ∀ l, e.wrap = .Deferred l → lazy = true

theorem as_token {lazy : Bool} {t : Token} {r : Nat} (h : ∀ v st, t ≠ .Scalar v st) : As lazy ⟨.Token t, r⟩ :=
  ⟨fun v st he => by injection he with he; exact absurd he (h v st), fun l he => by cases he⟩

theorem as_other {lazy : Bool} {e : TokenEntry} (h : Other e) : As lazy e := by
  obtain ⟨t, r⟩ := e
  have h1 := h.1
  cases t with
  | Token t => exact as_token fun v st he => by subst he; simp [isNode, MaybeToken.marker, Marker.ofToken] at h1
  | Deferred l => simp [isNode, MaybeToken.marker] at h1

theorem sub_bind {st : MStats} {f : Cur → Out ScanError α} {k : α → Scan β} (h : ∀ c a, f c = .ok a → Adds S (k a)) :
    Adds S (Scan.sub st f >>= k) := by
  intro s
  simp only [Scan.sub, Scan.get, SO.get, Bind.bind, SO.bind]
  cases hf : f ⟨s.buf, st⟩ with
  | ok a => exact h _ _ hf s
  | _ => exact ⟨[], by simp [SO.lift], fun e he => by cases he⟩

theorem Adds.mono {S' : TokenEntry → Prop} {m : Scan α} (h : Adds S m) (hS : ∀ e, S e → S' e) : Adds S' m := by
  intro s
  obtain ⟨l, h1, h2⟩ := h s
  exact ⟨l, h1, fun e he => hS e (h2 e he)⟩

theorem anchor_token {a : Bool} {c c' : Cur} {t : Token} (h : scanAnchor opts a c = .ok (t, c')) : ∀ v st, t ≠ .Scalar v st := by
  unfold scanAnchor at h
  obtain ⟨_, _, h⟩ := Out.bind_eq_ok.1 h
  obtain ⟨_, _, h⟩ := Out.bind_eq_ok.1 h
  obtain ⟨_, _, h⟩ := Out.bind_eq_ok.1 h
  split at h
  · cases h
  · obtain ⟨_, _, h⟩ := Out.bind_eq_ok.1 h
    obtain ⟨_, _, h⟩ := Out.bind_eq_ok.1 h
    simp only [Out.ok.injEq, Prod.mk.injEq] at h
    rw [← h.1]
    cases a <;> simp

theorem tag_token {c c' : Cur} {t : Token} (h : scanNodeTag opts c = .ok (t, c')) : ∀ v st, t ≠ .Scalar v st := by
  unfold scanNodeTag at h
  obtain ⟨_, _, h⟩ := Out.bind_eq_ok.1 h
  split at h
  · unfold scanVerbatim at h
    obtain ⟨_, _, h⟩ := Out.bind_eq_ok.1 h
    obtain ⟨⟨_, _⟩, _, h⟩ := Out.bind_eq_ok.1 h
    obtain ⟨_, _, h⟩ := Out.bind_eq_ok.1 h
    obtain ⟨_, _, h⟩ := Out.bind_eq_ok.1 h
    obtain ⟨_, _, h⟩ := Out.bind_eq_ok.1 h
    simp only [Out.ok.injEq, Prod.mk.injEq] at h
    rw [← h.1]
    simp
  · obtain ⟨⟨r, _⟩, _, h⟩ := Out.bind_eq_ok.1 h
    simp only at h
    split at h
    · obtain ⟨_, _, h⟩ := Out.bind_eq_ok.1 h
      simp only [Out.ok.injEq, Prod.mk.injEq] at h
      rw [← h.1]
      simp
    · obtain ⟨_, _, h⟩ := Out.bind_eq_ok.1 h
      obtain ⟨⟨_, _⟩, _, h⟩ := Out.bind_eq_ok.1 h
      simp only [Out.ok.injEq, Prod.mk.injEq] at h
      rw [← h.1]
      simp
    · obtain ⟨_, _, h⟩ := Out.bind_eq_ok.1 h
      obtain ⟨_, _, h⟩ := Out.bind_eq_ok.1 h
      obtain ⟨⟨_, _⟩, _, h⟩ := Out.bind_eq_ok.1 h
      simp only [Out.ok.injEq, Prod.mk.injEq] at h
      rw [← h.1]
      simp

theorem directive_token {c c' : Cur} {t : Token} (h : Scan.directiveToken opts c = .ok (t, c')) : ∀ v st, t ≠ .Scalar v st := by
  unfold Scan.directiveToken at h
  obtain ⟨_, _, h⟩ := Out.bind_eq_ok.1 h
  obtain ⟨kind, _, h⟩ := Out.bind_eq_ok.1 h
  obtain ⟨_, _, h⟩ := Out.bind_eq_ok.1 h
  unfold scanDirective at h
  cases kind with
  | Version =>
    obtain ⟨_, _, h⟩ := Out.bind_eq_ok.1 h
    obtain ⟨⟨_, _⟩, _, h⟩ := Out.bind_eq_ok.1 h
    obtain ⟨_, _, h⟩ := Out.bind_eq_ok.1 h
    obtain ⟨_, _, h⟩ := Out.bind_eq_ok.1 h
    obtain ⟨_, _, h⟩ := Out.bind_eq_ok.1 h
    obtain ⟨⟨_, _⟩, _, h⟩ := Out.bind_eq_ok.1 h
    simp only [Out.ok.injEq, Prod.mk.injEq] at h
    rw [← h.1]
    simp
  | Tag =>
    obtain ⟨_, _, h⟩ := Out.bind_eq_ok.1 h
    unfold scanTagDirective at h
    obtain ⟨⟨r, _⟩, _, h⟩ := Out.bind_eq_ok.1 h
    simp only at h
    split at h
    · cases h
    · obtain ⟨_, _, h⟩ := Out.bind_eq_ok.1 h
      obtain ⟨_, _, h⟩ := Out.bind_eq_ok.1 h
      obtain ⟨_, _, h⟩ := Out.bind_eq_ok.1 h
      obtain ⟨_, _, h⟩ := Out.bind_eq_ok.1 h
      obtain ⟨⟨_, _⟩, _, h⟩ := Out.bind_eq_ok.1 h
      obtain ⟨_, _, h⟩ := Out.bind_eq_ok.1 h
      simp only [Out.ok.injEq, Prod.mk.injEq] at h
      rw [← h.1]
      simp

theorem as_deferred {l : Lazy} {r : Nat} : As true ⟨.Deferred l, r⟩ := ⟨fun v st he => (by cases he), fun _ _ => rfl⟩

theorem as_scalar {t : Token} {r : Nat} : As false ⟨.Token t, r⟩ := ⟨fun _ _ _ => rfl, fun l he => by cases he⟩

theorem flow_as {single : Bool} {c c' : Cur} {t : MaybeToken} (h : scanFlow opts single c = .ok (t, c')) (r : Nat) : As opts.lazy ⟨t, r⟩ := by
  unfold scanFlow at h
  split at h <;> rename_i hl
  · obtain ⟨⟨_, _⟩, _, h⟩ := Out.bind_eq_ok.1 h
    simp only [Out.ok.injEq, Prod.mk.injEq] at h
    rw [← h.1, hl]
    exact as_deferred
  · obtain ⟨⟨_, _⟩, _, h⟩ := Out.bind_eq_ok.1 h
    simp only [Out.ok.injEq, Prod.mk.injEq] at h
    rw [← h.1, Bool.eq_false_iff.2 hl]
    exact as_scalar

theorem plain_as {i : Nat} {b : Bool} {c c' : Cur} {t : MaybeToken} (h : scanPlain opts i b c = .ok (t, c')) (r : Nat) : As opts.lazy ⟨t, r⟩ := by
  unfold scanPlain at h
  split at h <;> rename_i hl
  · obtain ⟨⟨_, _⟩, _, h⟩ := Out.bind_eq_ok.1 h
    simp only [Out.ok.injEq, Prod.mk.injEq] at h
    rw [← h.1, hl]
    exact as_deferred
  · obtain ⟨⟨_, _⟩, _, h⟩ := Out.bind_eq_ok.1 h
    simp only [Out.ok.injEq, Prod.mk.injEq] at h
    rw [← h.1, Bool.eq_false_iff.2 hl]
    exact as_scalar

theorem block_as {i : Nat} {b : Bool} {c c' : Cur} {t : MaybeToken} (h : scanBlock opts i b c = .ok (t, c')) (r : Nat) : As opts.lazy ⟨t, r⟩ := by
  unfold scanBlock at h
  split at h <;> rename_i hl
  · obtain ⟨⟨_, _⟩, _, h⟩ := Out.bind_eq_ok.1 h
    simp only [Out.ok.injEq, Prod.mk.injEq] at h
    rw [← h.1, hl]
    exact as_deferred
  · obtain ⟨⟨_, _⟩, _, h⟩ := Out.bind_eq_ok.1 h
    simp only [Out.ok.injEq, Prod.mk.injEq] at h
    rw [← h.1, Bool.eq_false_iff.2 hl]
    exact as_scalar

theorem finish_adds {t : MaybeToken} {c : Cur} (h : ∀ r, S ⟨t, r⟩) : Adds S (Scan.finish t c) :=
  Adds.saveKey.bind fun _ => (Adds.upd _).bind fun _ => Adds.get.bind fun _ => (Adds.commit _ _).bind fun _ => Adds.get.bind fun _ =>
    Adds.enqueue (h _)

/-- What a token is fetched by. -/
theorem run_as (f : Scan.Fetch) : Adds (As opts.lazy) (Scan.run opts f) := by
  by_cases hd : f = .directive
  · subst hd
    refine sub_bind fun c a h => ?_
    obtain ⟨t, c'⟩ := a
    exact (Adds.unroll (fun r => as_token (by simp)) _).bind fun _ => Adds.removeKey.bind fun _ => (Adds.upd _).bind fun _ =>
      Adds.get.bind fun _ => (Adds.commit _ _).bind fun _ => Adds.push fun r => as_token (directive_token h)
  by_cases hf : f.isNode = false
  · exact Adds.mono (Adds.other hf hd) fun _ h => as_other h
  cases f <;> first | exact absurd rfl hf | skip
  · exact Adds.get.bind fun _ => sub_bind fun c a h => finish_adds fun r => as_token (anchor_token (c' := a.2) h)
  · exact sub_bind fun c a h => finish_adds fun r => as_token (tag_token (c' := a.2) h)
  · exact Adds.removeKey.bind fun _ => (Adds.upd _).bind fun _ => Adds.get.bind fun _ => sub_bind fun c a h =>
      (Adds.commit _ _).bind fun _ => Adds.enqueue (block_as (c' := a.2) h _)
  · exact Adds.get.bind fun _ => sub_bind fun c a h => finish_adds fun r => flow_as (c' := a.2) h r
  · exact Adds.get.bind fun _ => sub_bind fun c a h => Adds.saveKey.bind fun _ => (Adds.upd _).bind fun _ =>
      (Adds.commit _ _).bind fun _ => Adds.enqueue (plain_as (c' := a.2) h _)

/-- A step. -/
theorem step_as : Adds (As opts.lazy) (Scan.scanNextToken opts) := by
  have hend : ∀ r, As opts.lazy ⟨.Token .BlockEnd, r⟩ := fun r => as_token (by simp)
  refine Adds.get.bind fun s => Adds.ite ((Adds.upd _).bind fun _ => Adds.push fun r => as_token (by simp)) ?_
  refine (Adds.prepare hend).bind fun _ => Adds.get.bind fun s => Adds.ite ?_ ((Adds.lift _).bind fun _ => run_as _)
  exact Adds.get.bind fun s => Adds.ite (Adds.pure _) (Adds.ite ((Adds.unroll hend _).bind fun _ => Adds.removeKey.bind fun _ =>
    (Adds.upd _).bind fun _ => Adds.push fun r => as_token (by simp)) (Adds.pure _))

theorem loop_as {base : Str} : ∀ fuel (sc : Scanner) (out : List TokenEntry), (∀ e ∈ out, As opts.lazy e) →
    ∀ e ∈ (scanLoop opts base fuel sc out).2.2, As opts.lazy e
  | 0, sc, out, h => h
  | fuel + 1, sc, out, h => by
    rw [scanLoop]
    split
    · split
      · obtain ⟨l, h1, h2⟩ := step_as (opts := opts) ⟨sc, base.drop sc.offset, out⟩
        have h3 : ∀ e ∈ (Scan.scanNextToken opts ⟨sc, base.drop sc.offset, out⟩).2.out, As opts.lazy e := by
          intro e he
          rw [h1] at he
          rcases List.mem_append.1 he with he | he
          · exact h e he
          · exact h2 e he
        generalize Scan.scanNextToken opts ⟨sc, base.drop sc.offset, out⟩ = r at h3
        obtain ⟨x, s⟩ := r
        cases x with
        | ok u => exact loop_as fuel _ _ h3
        | err e => simp only; split <;> exact h3
        | panic => exact h3
        | diverge => exact h3
      · exact loop_as fuel _ _ h
    · exact h

/-- All that a call of the scanner adds. -/
theorem scanTokens_as {base : Str} {sc : Scanner} : ∀ e ∈ (scanTokens opts base sc).2.2, As opts.lazy e :=
  loop_as _ _ _ fun e he => by cases he

theorem borrow_as {data : Str} {sc : Scanner} : ∀ e ∈ (borrowDrive opts data sc).2.1, As opts.lazy e := by
  have h := scanTokens_as (opts := { opts with extendable := false }) (base := data) (sc := sc)
  unfold borrowDrive
  generalize scanTokens { opts with extendable := false } data sc = r at h
  obtain ⟨x, sc1, out⟩ := r
  cases x <;> exact h

theorem owned_as {size : Nat → Nat → Nat} : ∀ fuel (o : Owned) (sc : Scanner) (out : List TokenEntry), (∀ e ∈ out, As opts.lazy e) →
    ∀ e ∈ (ownedLoop size opts fuel o sc out).2.1, As opts.lazy e
  | 0, o, sc, out, h => h
  | fuel + 1, o, sc, out, h => by
    rw [ownedLoop]
    have h1 := scanTokens_as (opts := { opts with extendable := !o.exhausted }) (base := o.head) (sc := sc)
    generalize scanTokens { opts with extendable := !o.exhausted } o.head sc = r at h1
    obtain ⟨x, sc1, more⟩ := r
    have h2 : ∀ e ∈ out ++ more, As opts.lazy e := fun e he => (List.mem_append.1 he).elim (h e) (h1 e)
    split <;> rename_i heq <;> simp only [Prod.mk.injEq] at heq <;> obtain ⟨-, rfl, rfl⟩ := heq
    · exact h2
    · generalize o.refresh size sc1.offset = r
      obtain ⟨y, o1⟩ := r
      cases y with
      | ok u => exact owned_as fuel _ _ _ h2
      | _ => exact h2
    all_goals exact h2

/-- All that a reader hands out. -/
theorem handed_as {σ : Type} {drive : Drive σ} {lazy : Bool} (hd : ∀ s, ∀ e ∈ (drive s).2.1, As lazy e) {src : σ} (ops : List ROp) :
    ∀ e ∈ handed (runOps drive ops (PeekReader.new src)).1, As lazy e := by
  have hk := (reader_kept (drive := drive) (J := fun _ D => ∀ e ∈ D, As lazy e) (K := fun _ => True) (src := src)
    (fun s D o b s' hJ hb _ e he => by
      rcases List.mem_append.1 he with he | he
      · exact hJ e he
      · have := hd s
        rw [hb] at this
        exact this e ((deliver_stable b).perm.mem_iff.1 he)) (fun e he => by cases he) ops (fun _ _ => trivial)).2
  intro e he
  exact hk e (List.mem_append_left _ (List.mem_append_left _ he))

/-- A scalar of an event is that of a token, or implied. -/
theorem scalar_token {chunks : List (List TokenEntry)} {es : List Event} (h : Explained chunks es) {a b : Nat} {n : Node} {c : ScalarLike}
    (he : ⟨a, b, .Scalar n c⟩ ∈ es) : c = .empty ∨ ∃ t ∈ chunks.flatten, pieces t = [.scalar c] := by
  induction h with
  | nil => cases he
  | @cons ts chunks e es h t ih =>
    rcases List.mem_cons.1 he with rfl | he
    · obtain ⟨ps, tag, -, -, ⟨hc, -⟩ | ⟨-, rfl⟩⟩ := h
      · refine .inr ?_
        have : Piece.scalar c ∈ ts.flatMap pieces := by rw [hc]; simp
        obtain ⟨t, ht, h1⟩ := List.mem_flatMap.1 this
        refine ⟨t, by simp [ht], ?_⟩
        unfold pieces at h1 ⊢
        split at h1 <;> simp_all
      · exact .inl rfl
    · rcases ih he with h | ⟨t, h1, h2⟩
      · exact .inl h
      · exact .inr ⟨t, by simp only [List.flatten_cons, List.mem_append]; exact .inr h1, h2⟩

/-- The scalars of a stream of events. -/
theorem events_as {σ : Type} {drive : Drive σ} {lazy : Bool} (hd : ∀ s, ∀ e ∈ (drive s).2.1, As lazy e) {src : σ} {es : List Event} {s : PS σ}
    (h : Yields drive (start src) es s) {a b : Nat} {n : Node} {c : ScalarLike} (he : ⟨a, b, .Scalar n c⟩ ∈ es) :
    c = .empty ∨ (lazy = false ∧ ∃ v, c = .Eager v) ∨ lazy = true ∧ ∃ l, c = .Lazy l := by
  obtain ⟨chunks, h1, h2⟩ := C37_events_carry_tokens h
  rcases scalar_token h1 he with h | ⟨t, ht, hp⟩
  · exact .inl h
  · obtain ⟨ops, -, h3, -⟩ := Count.pops_ops h2
    have := handed_as hd ops t (by rw [h3]; exact ht)
    unfold pieces at hp
    split at hp <;> simp only [List.cons.injEq, Piece.scalar.injEq, and_true, reduceCtorEq, false_and] at hp
    · next hw => exact .inr (.inl ⟨this.1 _ _ hw, _, hp.symm⟩)
    · next hw => exact .inr (.inr ⟨this.2 _ hw, _, hp.symm⟩)

end Yary.Asked
