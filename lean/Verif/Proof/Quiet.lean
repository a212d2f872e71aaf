import Verif.Proof.Returns
import Verif.Proof.Client
import Verif.Proof.Safe

/-! # A parser panics only where its source does -/

namespace Yary

open Spec

namespace Quiet

variable {σ : Type} {d : Drive σ}

/-- The source with an error in place of each panic. -/
def brave (d : Drive σ) : Drive σ := fun st =>
  match d st with
  | (.panic, out, st') => (.err (.Scanner .Extend), out, st')
  | r => r

theorem brave_same {st : σ} (h : (d st).1 ≠ .panic) : brave d st = d st := by
  unfold brave
  generalize d st = r at h
  obtain ⟨o, out, st'⟩ := r
  cases o with
  | panic => exact absurd rfl h
  | _ => rfl

theorem brave_never (st : σ) : (brave d st).1 ≠ .panic := by
  unfold brave
  generalize d st = r
  obtain ⟨o, out, st'⟩ := r
  cases o <;> nofun

theorem takeNext_brave {p : PeekReader σ} (h : (p.takeNext d).1 ≠ .panic) : p.takeNext (brave d) = p.takeNext d := by
  unfold PeekReader.takeNext at h ⊢
  split
  · rfl
  · next hp =>
    rw [if_neg hp] at h
    by_cases hq : p.reader.queue.isEmpty = true
    · rw [if_pos hq] at h
      rw [if_pos hq, if_pos hq]
      have : (d p.reader.src).1 ≠ .panic := by
        intro hd
        apply h
        unfold Reader.scanTokens
        generalize d p.reader.src = r at hd
        obtain ⟨o, out, sc⟩ := r
        cases hd
        rfl
      unfold Reader.scanTokens
      rw [brave_same this]
    · rw [if_neg hq, if_neg hq]

theorem op_brave {p : PeekReader σ} {op : ROp} (h : (op.run d p).1 ≠ .panic) : op.run (brave d) p = op.run d p := by
  have key : p.peeked = none → p.reader.isExhausted = false → p.takeNext (brave d) = p.takeNext d := by
    intro h1 h2
    refine takeNext_brave fun ht => h ?_
    cases op with
    | peek =>
      change (p.peek d).1 = _
      unfold PeekReader.peek
      rw [h1, h2]
      generalize p.takeNext d = r at ht
      obtain ⟨o, q⟩ := r
      cases ht
      rfl
    | pop =>
      change (p.pop d).1 = _
      unfold PeekReader.pop
      rw [h1, h2]
      generalize p.takeNext d = r at ht
      obtain ⟨o, q⟩ := r
      cases ht
      rfl
  cases op with
  | peek =>
    change p.peek (brave d) = p.peek d
    unfold PeekReader.peek
    cases h1 : p.peeked with
    | some e => rfl
    | none =>
      cases h2 : p.reader.isExhausted with
      | true => rfl
      | false => rw [key h1 h2]
  | pop =>
    change p.pop (brave d) = p.pop d
    unfold PeekReader.pop
    cases h1 : p.peeked with
    | some e => rfl
    | none =>
      cases h2 : p.reader.isExhausted with
      | true => rfl
      | false => rw [key h1 h2]

variable {p0 : PeekReader σ}

theorem tied (hall : ∀ ops op, (ROp.run d (runOps d ops p0).2 op).1 ≠ .panic) :
    Sim.Tied Eq (fun _ => False) (fun p p' => p' = p ∧ ∃ ops, p = (runOps d ops p0).2) (brave d) d := by
  intro p p' hp op
  obtain ⟨rfl, ops, hops⟩ := hp
  have hn : (op.run d p').1 ≠ .panic := hops ▸ hall ops op
  rw [op_brave hn]
  cases hx : (op.run d p').1 with
  | ok t =>
    refine .inl ⟨t, t, hx, hx, ?_, rfl, ops ++ [op], ?_⟩
    · cases t with
      | none => exact .none
      | some e => exact .some ⟨rfl, .same _⟩
    · rw [Client.ops_append, ← hops]
      rfl
  | _ => exact .inr ⟨fun t h => (by rw [hx] at h; cases h), .inl rfl⟩

/-- No call panics if no history of the reader has a panic. -/
theorem nextEvent_quiet (hall : ∀ ops op, (ROp.run d (runOps d ops p0).2 op).1 ≠ .panic) {s : PS σ} (hi : Parser.Inv s)
    {ops : List ROp} (hs : s.tokens = (runOps d ops p0).2) (fuel : Nat) : (Parser.nextEvent d fuel s).1 ≠ .panic := by
  have h1 : (Parser.nextEvent (brave d) fuel s).1 ≠ .panic :=
    (Parser.nextEventLoop_safe (drive := brave d) (fuel := fuel) (n := fuel) (.inl hi)).2 brave_never
  have h2 := Sim.nextEvent (fun _ => rfl) (tied hall) fuel s.parser s.tokens s.tokens ⟨rfl, ops, hs⟩
  change Sim.Res _ _ _ (Parser.nextEvent (brave d) fuel s) (Parser.nextEvent d fuel s) at h2
  generalize Parser.nextEvent (brave d) fuel s = x at h1 h2
  generalize Parser.nextEvent d fuel s = y at h2 ⊢
  cases h2 with
  | ok => nofun
  | err => nofun
  | panic => exact h1
  | diverge => nofun
  | same => exact h1
  | fails _ h => exact h.elim

end Quiet

end Yary
