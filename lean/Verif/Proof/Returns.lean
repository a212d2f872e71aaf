import Verif.Proof.Sim
import Verif.Proof.Term
import Verif.Proof.Scan.Cost
import Verif.Proof.Deliver

/-! # Calls over a text return -/

namespace Yary

open Spec

namespace Returns

variable {σ : Type} {d d' : Drive σ} {opts : SFlags} {base : Str}

/-- The source, stopped where it does not succeed: it then hands out nothing, and it panics in place of not returning; also in states that are none of `P`. -/
noncomputable def calm (P : σ → Prop) (d : Drive σ) : Drive σ := fun st =>
  open Classical in
  if P st then
    match d st with
    | (.ok u, out, st') => (.ok u, out, st')
    | (.err e, _, _) => (.err e, [], st)
    | (.panic, _, _) => (.panic, [], st)
    | (.diverge, _, _) => (.panic, [], st)
  else (.panic, [], st)

variable {P : σ → Prop}

theorem calm_ok {st : σ} {u : Unit} (hP : P st) (h : (d st).1 = .ok u) : calm P d st = d st := by
  unfold calm
  rw [if_pos hP]
  generalize d st = r at h
  obtain ⟨o, out, st'⟩ := r
  cases h
  rfl

theorem calm_fst {st : σ} (hP : P st) (h : (d st).1 ≠ .diverge) : (calm P d st).1 = (d st).1 := by
  unfold calm
  rw [if_pos hP]
  generalize d st = r at h
  obtain ⟨o, out, st'⟩ := r
  cases o with
  | diverge => exact absurd rfl h
  | _ => rfl

theorem calm_term (st : σ) : (calm P d st).1 ≠ .diverge := by
  unfold calm
  split
  · split <;> nofun
  · nofun

theorem calm_bounded {μ : σ → Nat} (h : ∀ st u, P st → (d st).1 = .ok u → (d st).2.1.length + μ (d st).2.2 ≤ μ st) (st : σ) :
    (calm P d st).2.1.length + μ (calm P d st).2.2 ≤ μ st := by
  have := h st
  unfold calm
  split
  · next hP =>
    generalize d st = r at this ⊢
    obtain ⟨o, out, st'⟩ := r
    cases o with
    | ok u => exact this u hP rfl
    | _ => simp
  · simp

/-- Two sources of which one is the same or fails in the same way. -/
theorem takeNext_two {p : PeekReader σ} (h1 : (d' p.reader.src).1 = (d p.reader.src).1) (h2 : ∀ u, (d p.reader.src).1 = .ok u → d' p.reader.src = d p.reader.src) :
    p.takeNext d' = p.takeNext d ∨ ((∀ u, (p.takeNext d').1 ≠ .ok u) ∧ (p.takeNext d').1 = (p.takeNext d).1) := by
  unfold PeekReader.takeNext
  split
  · exact .inl rfl
  · by_cases hq : p.reader.queue.isEmpty = true
    · rw [if_pos hq, if_pos hq]
      unfold Reader.scanTokens
      generalize d p.reader.src = r at h1 h2 ⊢
      generalize d' p.reader.src = r' at h1 h2 ⊢
      obtain ⟨o, out, sc⟩ := r
      obtain ⟨o', out', sc'⟩ := r'
      dsimp only at h1
      subst h1
      cases o' with
      | ok u => have := h2 u rfl; cases this; exact .inl rfl
      | _ => exact .inr ⟨fun u h => (by cases h), rfl⟩
    · rw [if_neg hq, if_neg hq]
      exact .inl rfl

theorem op_two {p : PeekReader σ} (h1 : (d' p.reader.src).1 = (d p.reader.src).1) (h2 : ∀ u, (d p.reader.src).1 = .ok u → d' p.reader.src = d p.reader.src) (op : ROp) :
    op.run d' p = op.run d p ∨ ((∀ t, (op.run d' p).1 ≠ .ok t) ∧ (op.run d' p).1 = (op.run d p).1) := by
  have ht := takeNext_two h1 h2
  have key : ∀ f : PeekReader σ → PeekReader σ,
      (match p.peeked with
        | some e => ((.ok (some e), f p) : Out ReaderError (Option TokenEntry) × PeekReader σ)
        | none => if !p.reader.isExhausted then
            match p.takeNext d' with
            | (.ok (), p) => (.ok p.peeked, f p)
            | (.err e, p) => (.err e, p)
            | (.panic, p) => (.panic, p)
            | (.diverge, p) => (.diverge, p)
          else (.ok none, p)) =
      (match p.peeked with
        | some e => ((.ok (some e), f p) : Out ReaderError (Option TokenEntry) × PeekReader σ)
        | none => if !p.reader.isExhausted then
            match p.takeNext d with
            | (.ok (), p) => (.ok p.peeked, f p)
            | (.err e, p) => (.err e, p)
            | (.panic, p) => (.panic, p)
            | (.diverge, p) => (.diverge, p)
          else (.ok none, p)) ∨
      ((∀ t, (match p.peeked with
        | some e => ((.ok (some e), f p) : Out ReaderError (Option TokenEntry) × PeekReader σ)
        | none => if !p.reader.isExhausted then
            match p.takeNext d' with
            | (.ok (), p) => (.ok p.peeked, f p)
            | (.err e, p) => (.err e, p)
            | (.panic, p) => (.panic, p)
            | (.diverge, p) => (.diverge, p)
          else (.ok none, p)).1 ≠ .ok t) ∧
      (match p.peeked with
        | some e => ((.ok (some e), f p) : Out ReaderError (Option TokenEntry) × PeekReader σ)
        | none => if !p.reader.isExhausted then
            match p.takeNext d' with
            | (.ok (), p) => (.ok p.peeked, f p)
            | (.err e, p) => (.err e, p)
            | (.panic, p) => (.panic, p)
            | (.diverge, p) => (.diverge, p)
          else (.ok none, p)).1 =
      (match p.peeked with
        | some e => ((.ok (some e), f p) : Out ReaderError (Option TokenEntry) × PeekReader σ)
        | none => if !p.reader.isExhausted then
            match p.takeNext d with
            | (.ok (), p) => (.ok p.peeked, f p)
            | (.err e, p) => (.err e, p)
            | (.panic, p) => (.panic, p)
            | (.diverge, p) => (.diverge, p)
          else (.ok none, p)).1) := by
    intro f
    cases p.peeked with
    | some e => exact .inl rfl
    | none =>
      dsimp only
      split
      · rcases ht with ht | ⟨ht, he⟩
        · rw [ht]; exact .inl rfl
        · generalize p.takeNext d = r at he
          generalize p.takeNext d' = r' at ht he
          obtain ⟨o, q⟩ := r
          obtain ⟨o', q'⟩ := r'
          dsimp only at he ht
          subst he
          cases o' with
          | ok u => exact absurd rfl (ht u)
          | _ => exact .inr ⟨nofun, rfl⟩
      · exact .inl rfl
  cases op with
  | peek => exact key id
  | pop => exact key fun p => { p with peeked := none }

/-- The stopped source reports what the source does, where that is known to return. -/
theorem calm_tied {J : σ → List TokenEntry → Prop} (hJ : ∀ s D o b s', J s D → d s = (o, b, s') → o ≠ .panic → J s' (D ++ deliver b))
    (hn : ∀ s D, J s D → (d s).1 ≠ .diverge) :
    Sim.Tied Eq (fun _ => False) (fun p p' => p' = p ∧ ∃ D, Kept J p D) (calm (fun s => ∃ D, J s D) d) d := by
  intro p p' hp op
  obtain ⟨hp, D, hD⟩ := hp
  subst hp
  have hP : ∃ D, J p'.reader.src D := ⟨_, hD.2⟩
  have h1 := calm_fst (P := fun s => ∃ D, J s D) hP (hn _ _ hD.2)
  rcases op_two h1 (fun u hu => calm_ok hP hu) op with h | ⟨h, he⟩
  · rw [h]
    cases hx : (op.run d p').1 with
    | ok t =>
      refine .inl ⟨t, t, hx, hx, ?_, rfl, ?_⟩
      · cases t with
        | none => exact .none
        | some e => exact .some ⟨rfl, .same _⟩
      · cases op with
        | peek => exact ⟨_, kept_peek (K := fun o => o ≠ .panic) hJ hD (by rw [show (p'.peek d).1 = _ from hx]; nofun)⟩
        | pop => exact ⟨_, kept_pop (K := fun o => o ≠ .panic) hJ hD (by rw [show (p'.pop d).1 = _ from hx]; nofun)⟩
    | _ => exact .inr ⟨fun t h => (by rw [hx] at h; cases h), .inl rfl⟩
  · exact .inr ⟨h, .inl he⟩

/-- A call returns if the source does and has only so many tokens left. -/
theorem nextEvent_returns {J : σ → List TokenEntry → Prop} (hJ : ∀ s D o b s', J s D → d s = (o, b, s') → o ≠ .panic → J s' (D ++ deliver b))
    (hn : ∀ s D, J s D → (d s).1 ≠ .diverge) {μ : σ → Nat} (hμ : ∀ st u, (∃ D, J st D) → (d st).1 = .ok u → (d st).2.1.length + μ (d st).2.2 ≤ μ st)
    {s : PS σ} (hi : Parser.Inv s) {D : List TokenEntry} (hD : Kept J s.tokens D) {fuel : Nat} (hf : s.tokens.left μ + 2 ≤ fuel) :
    (Parser.nextEvent d fuel s).1 ≠ .diverge := by
  have h1 := Parser.nextEvent_noDiv (drive := calm (fun s => ∃ D, J s D) d) calm_term (calm_bounded hμ) hi hf
  have h2 := Sim.nextEvent (fun _ => rfl) (calm_tied hJ hn) fuel s.parser s.tokens s.tokens ⟨rfl, D, hD⟩
  change Sim.Res _ _ _ (Parser.nextEvent (calm (fun s => ∃ D, J s D) d) fuel s) (Parser.nextEvent d fuel s) at h2
  generalize Parser.nextEvent (calm (fun s => ∃ D, J s D) d) fuel s = x at h1 h2
  generalize Parser.nextEvent d fuel s = y at h2 ⊢
  cases h2 with
  | ok => nofun
  | err => nofun
  | panic => nofun
  | diverge => exact h1
  | same => exact h1
  | fails _ h => exact h.elim

/-- The tokens a scanner owes on a text pay for those it pushes. -/
theorem borrow_pays (hv : validUtf8 base = true) (sc : Scanner) (u : Unit) (h : (borrowDrive opts base sc).1 = .ok u) :
    (borrowDrive opts base sc).2.1.length + Cost.debt base (borrowDrive opts base sc).2.2 ≤ Cost.debt base sc := by
  unfold borrowDrive scanTokens at h ⊢
  generalize hr : scanLoop { opts with extendable := false } base (base.length + 3) sc [] = r at h ⊢
  obtain ⟨o, sc1, out⟩ := r
  cases o with
  | ok u =>
    have := Cost.loop hv _ _ _ _ _ hr
    simpa using this
  | _ => cases h

end Returns

end Yary
