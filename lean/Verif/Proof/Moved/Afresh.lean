import Verif.Proof.Moved.Waits
import Verif.Props.Position

/-! # The source after the end of a document -/

namespace Yary.Moved

open Spec

variable {opts : SFlags}

/-- The source after the end of a document, with no collection begun. -/
structure Clean (n : Nat) (sc : Scanner) : Prop where
  offset : sc.offset = n
  state : sc.state = .Stream
  key : sc.key = none
  context : sc.context = {}

/-- The first white space, if there is a line break in it. -/
theorem eatWhitespace_afresh {R : Str} {sc : Scanner} {n k : Nat} {rest : Str} (hc : Clean k sc) (hR : Skips true R n rest) (hn : n ≠ 0) :
    Pair (fun _ => True) (SSR sc.stats.read sc.stats.lines) Eq (Scan.eatWhitespace opts ⟨begun, R, []⟩) (Scan.eatWhitespace opts ⟨sc, R, []⟩) := by
  rw [eatWhitespace_eq, eatWhitespace_eq]
  dsimp only
  generalize hx : eatWs opts true ⟨R, {}⟩ = x
  cases x with
  | ok c =>
    obtain ⟨n', p, h1, -, -, h2⟩ := C14_skips hx
    obtain ⟨rfl, -⟩ := hR.unique h1
    have hl : c.stats.lines ≠ 0 := by rw [h2]; simpa using hn
    dsimp only
    unfold Scan.commit
    dsimp only
    split
    · refine .ok rfl ⟨⟨hc.state, by simp [hl], ?_, ?_, ?_⟩, rfl, rfl⟩
      · simp only [MStats.add, MStats.update, MStats.mv, MStats.mk.injEq, begun, if_pos hl]
        refine ⟨by omega, by omega, ?_⟩
        simp [hl]
      · rw [hc.key]; rfl
      · rw [hc.context]; rfl
    · exact .panic
  | err e => exact .err (.inl trivial)
  | panic => exact .panic
  | diverge => exact .diverge (.inl trivial)

theorem scanNextToken_afresh {R : Str} {sc : Scanner} {n k : Nat} {rest : Str} (hc : Clean k sc) (hR : Skips true R n rest) (hn : n ≠ 0) :
    Pair (fun _ => True) (SSR sc.stats.read sc.stats.lines) Eq (Scan.scanNextToken opts ⟨begun, R, []⟩) (Scan.scanNextToken opts ⟨sc, R, []⟩) := by
  have h := eatWhitespace_afresh (opts := opts) hc hR hn
  have h1 : Pair (fun _ => True) (SSR sc.stats.read sc.stats.lines) Eq (Scan.prepare opts ⟨begun, R, []⟩) (Scan.prepare opts ⟨sc, R, []⟩) :=
    Pair.bind (f := fun _ => settle) (g := fun _ => settle) h fun _ _ _ => settle_mv
  have h2 := Pair.bind (f := fun _ => Scan.fetchNext opts) (g := fun _ => Scan.fetchNext opts) h1 fun _ _ _ => fetchNext_mv
  have h3 : Scan.scanNextToken opts ⟨sc, R, []⟩ = (Scan.prepare opts >>= fun _ => Scan.fetchNext opts) ⟨sc, R, []⟩ := by
    simp only [Scan.scanNextToken, Bind.bind, SO.bind, Scan.get, SO.get, hc.state]
    rfl
  rw [h3]
  exact h2

/-- The source after `StreamStart` and the source after the end of a document, or both later. -/
def Anew (P : Str) (sc0 : Scanner) (sc sc' : Scanner) : Prop := At P sc0.stats.read sc0.stats.lines sc sc' ∨ (sc = begun ∧ sc' = sc0)

theorem loop_afresh {P R : Str} {sc0 : Scanner} {n : Nat} {rest : Str} (hv : validUtf8 R = true) (hc : Clean P.length sc0) (hR : Skips true R n rest) (hn : n ≠ 0)
    {sc sc' : Scanner} (h : Anew P sc0 sc sc') : LP P sc0.stats.read sc0.stats.lines (scanTokens opts R sc) (scanTokens opts (P ++ R) sc') := by
  rcases h with h | ⟨rfl, rfl⟩
  · exact loop_mv (out := []) hv _ _ (by simp) h
  · show LP P _ _ (scanLoop opts R (R.length + 2 + 1) begun []) (scanLoop opts (P ++ R) ((P ++ R).length + 2 + 1) sc' [])
    have hb : isBoundary (P ++ R) sc'.offset = true := by
      have := boundary_lead (W := P) hv 0
      rw [Nat.zero_add] at this
      rw [hc.offset, this]
      rfl
    have hl : scanLoop opts R (R.length + 2 + 1) begun [] = endTurn opts R (R.length + 2) (Scan.scanNextToken opts ⟨begun, R, []⟩) := by
      rw [loop_turn]
      rfl
    have hr : scanLoop opts (P ++ R) ((P ++ R).length + 2 + 1) sc' [] = endTurn opts (P ++ R) ((P ++ R).length + 2) (Scan.scanNextToken opts ⟨sc', R, []⟩) := by
      rw [loop_turn, if_pos (by simp [hc.state]), if_pos hb, hc.offset, List.drop_left]
    rw [hl, hr]
    refine turn (scanNextToken_afresh hc hR hn) ?_ ?_
    · intro s hs
      exact Cost.step_length (s := ⟨begun, R, []⟩) hv (by simp [begun]) hs
    · intro sc sc' out h
      exact loop_mv hv _ _ (by simp) h

theorem drive_afresh {P R : Str} {sc0 : Scanner} {n : Nat} {rest : Str} (hv : validUtf8 R = true) (hc : Clean P.length sc0) (hR : Skips true R n rest) (hn : n ≠ 0)
    {sc sc' : Scanner} (h : Anew P sc0 sc sc') :
    DP True sc0.stats.read sc0.stats.lines (Anew P sc0) (borrowDrive opts R sc) (borrowDrive opts (P ++ R) sc') := by
  have h := loop_afresh (opts := { opts with extendable := false }) hv hc hR hn h
  unfold borrowDrive
  generalize scanTokens { opts with extendable := false } R sc = x at h ⊢
  generalize scanTokens { opts with extendable := false } (P ++ R) sc' = y at h ⊢
  cases h with
  | ok hq hs => exact .ok rfl ⟨hs.2, .inl hs.1⟩
  | err h => exact .err (.inl (by intro h; cases h))
  | panic => exact .panic
  | diverge => exact .diverge (.inl fun _ => trivial)

/-- The reader when it handed out the end of a document, `toks` being what it handed out before and with it. -/
theorem reader_afresh {base : Str} {p q : PeekReader Scanner} {ts toks toks' : List TokenEntry} {e : TokenEntry} (hv : validUtf8 base = true)
    (h0 : Tidy [] ⟨{}, base, []⟩) (ht : Pops (borrowDrive opts base) (PeekReader.new {}) ts p) (hp : p.pop (borrowDrive opts base) = (.ok (some e), q))
    (he : e.wrap = .Token .DocumentEnd) (htoks : Pops (borrowDrive opts base) (PeekReader.new {}) toks q)
    (hb : ∀ t ∈ toks, isBlockStart t.marker = false)
    (htoks' : Pops (borrowDrive opts base) (PeekReader.new {}) toks' q)
    (hf : (toks'.map TokenEntry.marker).countP isFlowStart = (toks'.map TokenEntry.marker).countP isFlowEnd) :
    ∃ P i, base = P ++ bytes! "..." ++ base.drop q.reader.src.offset ∧ Clean (P.length + 3) q.reader.src ∧ isBoundary base q.reader.src.offset = true ∧
      q.peeked = none ∧ q.reader.queue = ⟨[], 1 + i⟩ ∧ q.reader.exhausted = false ∧ e.readAt = q.reader.src.stats.read := by
  have hH := (Having.pops hv ht (Having.start hv h0)).pop hv hp
  have hG := Having.pops hv htoks (Having.start hv h0)
  rw [List.nil_append] at hH hG
  obtain ⟨q', h1, rfl⟩ := PeekReader.peek_of_pop hp
  have hpk : q'.peeked = some e := (peek_waits (Having.pops hv ht (Having.start hv h0)).rep h1).1
  have hw : waiting { q' with peeked := none } = [] := by
    have hq := (Having.pops hv ht (Having.start hv h0)).peek hv h1
    exact hq.tail [] e (waiting { q' with peeked := none }) (by simp [waiting, hpk]) he
  obtain ⟨⟨g1, -, g2, P, g3, g4⟩, g5, g6⟩ := hH.last ts e (by rw [hw, List.append_nil]) he
  have hheap : q'.reader.queue.heap = [] := by
    obtain ⟨l, hl⟩ := hH.rep
    have hs := Queue.drain_stable _ _ _ hl (Nat.le_trans (Nat.le_of_eq hl.len.symm) (Nat.le_succ _))
    have h2 : q'.reader.queue.intoSortedVec = [] := by
      simpa [waiting] using hw
    have h3 := hs.perm.length_eq
    have h4 : (Queue.intoSortedVec q'.reader.queue).length = l.length := h3
    rw [h2] at h4
    have := hl.len
    rw [← h4] at this
    exact List.length_eq_zero_iff.1 this
  have hinc := hH.count (by simp)
  obtain ⟨hbo, ⟨-, hT⟩ | ⟨hd, -⟩⟩ := hG.mid
  · rw [hw, List.append_nil] at hT
    refine ⟨P, q'.reader.queue.increment - 1, g3, ⟨g4, g2, g1, ?_⟩, hbo, rfl, ?_, g5, g6⟩
    · have hst : q'.reader.src.context.started = false := by
        cases hs : q'.reader.src.context.started with
        | false => rfl
        | true =>
          obtain ⟨x, h2, h3⟩ := hT.2.started hs
          rw [List.append_nil] at h2
          rw [hb x h2] at h3
          cases h3
      have hflow : q'.reader.src.context.flow = 0 := by
        have hG' := Having.pops hv htoks' (Having.start hv h0)
        rw [List.nil_append] at hG'
        obtain ⟨-, ⟨-, hT'⟩ | ⟨hd, -⟩⟩ := hG'.mid
        · rw [hw, List.append_nil] at hT'
          have hn := hT'.1.nest
          rw [show deliver ([] : List TokenEntry) = [] from rfl, List.append_nil] at hn
          have hc := (nest_counts hn).1
          rw [hf] at hc
          dsimp only at hc
          omega
        · dsimp only at hd g2
          rw [g2] at hd
          cases hd
      obtain ⟨h5, h6⟩ := hT.2.indents hst
      dsimp only at h5 h6
      show q'.reader.src.context = {}
      generalize q'.reader.src.context = x at hst hflow h5 h6
      obtain ⟨_, _, _, _⟩ := x
      dsimp only at hst hflow h5 h6
      subst hst hflow h5 h6
      rfl
    · show q'.reader.queue = _
      dsimp only at hinc
      generalize q'.reader.queue = z at hheap hinc
      obtain ⟨a, b⟩ := z
      dsimp only at hheap hinc
      subst hheap
      show (⟨[], b⟩ : Queue TokenEntry) = ⟨[], 1 + (b - 1)⟩
      rw [show 1 + (b - 1) = b by omega]
  · dsimp only at hd g2
    rw [g2] at hd
    cases hd

end Yary.Moved
