import Verif.Proof.Final
import Verif.Proof.Asked
import Verif.Proof.Sim
import Verif.Proof.Scan.Texts

/-! # The end of the stream is reported once the scan has come to it -/

namespace Yary.Final

open Yary Spec

variable {opts : SFlags} {α β : Type}

theorem anchor_open {a : Bool} {c c' : Cur} {t : Token} (h : scanAnchor opts a c = .ok (t, c')) : t ≠ .StreamEnd := by
  unfold scanAnchor at h
  obtain ⟨_, _, h⟩ := Out.bind_eq_ok.1 h
  obtain ⟨_, _, h⟩ := Out.bind_eq_ok.1 h
  obtain ⟨_, _, h⟩ := Out.bind_eq_ok.1 h
  split at h
  · cases h
  · obtain ⟨_, _, h⟩ := Out.bind_eq_ok.1 h
    obtain ⟨_, _, h⟩ := Out.bind_eq_ok.1 h
    simp only [Out.ok.injEq, Prod.mk.injEq] at h
    rw [← h.1]
    cases a <;> simp

theorem tag_open {c c' : Cur} {t : Token} (h : scanNodeTag opts c = .ok (t, c')) : t ≠ .StreamEnd := by
  unfold scanNodeTag at h
  obtain ⟨_, _, h⟩ := Out.bind_eq_ok.1 h
  split at h
  · unfold scanVerbatim at h
    obtain ⟨_, _, h⟩ := Out.bind_eq_ok.1 h
    obtain ⟨⟨_, _⟩, _, h⟩ := Out.bind_eq_ok.1 h
    obtain ⟨_, _, h⟩ := Out.bind_eq_ok.1 h
    obtain ⟨_, _, h⟩ := Out.bind_eq_ok.1 h
    obtain ⟨_, _, h⟩ := Out.bind_eq_ok.1 h
    simp only [Out.ok.injEq, Prod.mk.injEq] at h
    rw [← h.1]
    simp
  · obtain ⟨⟨r, _⟩, _, h⟩ := Out.bind_eq_ok.1 h
    simp only at h
    split at h
    · obtain ⟨_, _, h⟩ := Out.bind_eq_ok.1 h
      simp only [Out.ok.injEq, Prod.mk.injEq] at h
      rw [← h.1]
      simp
    · obtain ⟨_, _, h⟩ := Out.bind_eq_ok.1 h
      obtain ⟨⟨_, _⟩, _, h⟩ := Out.bind_eq_ok.1 h
      simp only [Out.ok.injEq, Prod.mk.injEq] at h
      rw [← h.1]
      simp
    · obtain ⟨_, _, h⟩ := Out.bind_eq_ok.1 h
      obtain ⟨_, _, h⟩ := Out.bind_eq_ok.1 h
      obtain ⟨⟨_, _⟩, _, h⟩ := Out.bind_eq_ok.1 h
      simp only [Out.ok.injEq, Prod.mk.injEq] at h
      rw [← h.1]
      simp

theorem directive_open {c c' : Cur} {t : Token} (h : Scan.directiveToken opts c = .ok (t, c')) : t ≠ .StreamEnd := by
  unfold Scan.directiveToken at h
  obtain ⟨_, _, h⟩ := Out.bind_eq_ok.1 h
  obtain ⟨kind, _, h⟩ := Out.bind_eq_ok.1 h
  obtain ⟨_, _, h⟩ := Out.bind_eq_ok.1 h
  unfold scanDirective at h
  cases kind with
  | Version =>
    obtain ⟨_, _, h⟩ := Out.bind_eq_ok.1 h
    obtain ⟨⟨_, _⟩, _, h⟩ := Out.bind_eq_ok.1 h
    obtain ⟨_, _, h⟩ := Out.bind_eq_ok.1 h
    obtain ⟨_, _, h⟩ := Out.bind_eq_ok.1 h
    obtain ⟨_, _, h⟩ := Out.bind_eq_ok.1 h
    obtain ⟨⟨_, _⟩, _, h⟩ := Out.bind_eq_ok.1 h
    simp only [Out.ok.injEq, Prod.mk.injEq] at h
    rw [← h.1]
    simp
  | Tag =>
    obtain ⟨_, _, h⟩ := Out.bind_eq_ok.1 h
    unfold scanTagDirective at h
    obtain ⟨⟨r, _⟩, _, h⟩ := Out.bind_eq_ok.1 h
    simp only at h
    split at h
    · cases h
    · obtain ⟨_, _, h⟩ := Out.bind_eq_ok.1 h
      obtain ⟨_, _, h⟩ := Out.bind_eq_ok.1 h
      obtain ⟨_, _, h⟩ := Out.bind_eq_ok.1 h
      obtain ⟨_, _, h⟩ := Out.bind_eq_ok.1 h
      obtain ⟨⟨_, _⟩, _, h⟩ := Out.bind_eq_ok.1 h
      obtain ⟨_, _, h⟩ := Out.bind_eq_ok.1 h
      simp only [Out.ok.injEq, Prod.mk.injEq] at h
      rw [← h.1]
      simp


/-- No end of the stream. -/
def Open (e : TokenEntry) : Prop := e.wrap ≠ .Token .StreamEnd

/-- The stream goes on. -/
def Stay (m : Scan α) : Prop := ∀ s, (m s).2.sc.state = s.sc.state ∧ ∃ l, (m s).2.out = s.out ++ l ∧ ∀ e ∈ l, Open e

namespace Stay

theorem bind {m : Scan α} {f : α → Scan β} (h : Stay m) (h' : ∀ a, Stay (f a)) : Stay (m >>= f) := by
  intro s
  obtain ⟨h1, l, h2, h3⟩ := h s
  simp only [Bind.bind, SO.bind]
  generalize m s = r at h1 h2
  obtain ⟨o, s1⟩ := r
  cases o with
  | ok a =>
    obtain ⟨k1, l', k2, k3⟩ := h' a s1
    refine ⟨k1.trans h1, l ++ l', by rw [k2, h2, List.append_assoc], fun e he => ?_⟩
    rcases List.mem_append.1 he with he | he
    · exact h3 e he
    · exact k3 e he
  | _ => exact ⟨h1, l, h2, h3⟩

theorem same {m : Scan α} (h : ∀ s, (m s).2.sc.state = s.sc.state) (h' : ∀ s, (m s).2.out = s.out) : Stay m :=
  fun s => ⟨h s, [], by rw [h' s]; simp, nofun⟩

theorem pure {a : α} : Stay (Pure.pure a : Scan α) := same (fun _ => rfl) fun _ => rfl
theorem get : Stay Scan.get := same (fun _ => rfl) fun _ => rfl
theorem fail {e : ScanError} : Stay (SO.fail e : Scan α) := same (fun _ => rfl) fun _ => rfl
theorem lift {x : Out ScanError α} : Stay (SO.lift x : Scan α) := same (fun _ => rfl) fun _ => rfl
theorem upd {f : Scanner → Scanner} (h : ∀ sc, (f sc).state = sc.state) : Stay (Scan.upd f) := same (fun s => h s.sc) fun _ => rfl
theorem enqueue {t : MaybeToken} {r : Nat} (h : t ≠ .Token .StreamEnd) : Stay (Scan.enqueue t r) := fun s =>
  ⟨rfl, [⟨t, r⟩], rfl, by simpa [Open] using h⟩
theorem push {t : Token} (h : t ≠ .StreamEnd) : Stay (Scan.push t) := get.bind fun _ => enqueue (by simpa using h)

theorem ite {c : Prop} [Decidable c] {m m' : Scan α} (h : Stay m) (h' : Stay m') : Stay (if c then m else m') := by
  split
  · exact h
  · exact h'

theorem commit {b : Str} {m : MStats} : Stay (Scan.commit b m) := by
  intro s
  unfold Scan.commit
  split <;> exact ⟨rfl, [], by simp, nofun⟩

theorem advance {n : Nat} : Stay (Scan.advance n) := by
  intro s
  unfold Scan.advance
  split <;> exact ⟨rfl, [], by simp, nofun⟩

theorem takeKey : Stay Scan.takeKey := get.bind fun _ => (upd (by intro; rfl)).bind fun _ => pure

theorem removeKey : Stay Scan.removeSavedKey := takeKey.bind fun k => by
  cases k with
  | none => exact pure
  | some k => exact ite fail pure

theorem saveKey : Stay Scan.saveKey := get.bind fun _ => ite (removeKey.bind fun _ => upd (by intro; rfl)) pure

theorem finish {t : MaybeToken} {c : Cur} (h : t ≠ .Token .StreamEnd) : Stay (Scan.finish t c) :=
  saveKey.bind fun _ => (upd (by intro; rfl)).bind fun _ => get.bind fun _ => commit.bind fun _ => get.bind fun _ => enqueue h

theorem unroll {n : Option Nat} : Stay (Scan.unrollIndent n) := fun s =>
  ⟨rfl, List.replicate (s.sc.context.indentDecrement n).2 ⟨.Token .BlockEnd, s.sc.stats.read⟩, rfl, fun e he => by
    rw [(List.mem_replicate.1 he).2]; simp [Open]⟩

theorem popZero : Stay Scan.popZeroIndent := by
  intro s
  refine ⟨(popZero_keeps s).2.1, ?_⟩
  unfold Scan.popZeroIndent SO.modify
  simp only
  cases s.sc.context.indents with
  | nil => exact ⟨[], by simp, nofun⟩
  | cons e es =>
    simp only
    split
    · exact ⟨[⟨.Token .BlockEnd, s.sc.stats.read⟩], rfl, by simp [Open]⟩
    · exact ⟨[], by simp, nofun⟩

theorem rollIndent {a b c : Nat} {map : Bool} : Stay (Scan.rollIndent a b c map) := by
  have h : Stay (Scan.enqueue (.Token (if map then .BlockMappingStart else .BlockSequenceStart)) a) := enqueue (by cases map <;> simp)
  exact get.bind fun _ => ite (ite ((upd (by intro; rfl)).bind fun _ => h) (ite ((upd (by intro; rfl)).bind fun _ => h) pure)) pure

theorem rollHere {map : Bool} : Stay (Scan.rollHere map) := get.bind fun _ => rollIndent

theorem expireKey : Stay Scan.expireKey := get.bind fun s => by
  cases s.sc.key with
  | none => exact pure
  | some k => exact ite (ite fail (upd (by intro; rfl))) pure

theorem sub {m : MStats} {f : Cur → Out ScanError α} {k : α → Scan β} (h : ∀ c a, f c = .ok a → Stay (k a)) : Stay (Scan.sub m f >>= k) := by
  intro s
  simp only [Scan.sub, Scan.get, SO.get, Bind.bind, SO.bind]
  cases hf : f ⟨s.buf, m⟩ with
  | ok a => exact h _ _ hf s
  | _ => exact ⟨rfl, [], by simp [SO.lift], fun e he => by cases he⟩

theorem prepare : Stay (Scan.prepare opts) :=
  (sub fun _ _ _ => (upd (by intro; rfl)).bind fun _ => get.bind fun _ => commit).bind fun _ => expireKey.bind fun _ => get.bind fun _ =>
    unroll.bind fun _ => popZero

theorem valueBare : Stay Scan.valueBare := get.bind fun _ => (get.bind fun _ => ite (ite fail rollHere) pure).bind fun _ => upd (by intro; rfl)

end Stay

theorem quoted_open {c c' : Cur} {t : MaybeToken} {b : Bool} (h : scanFlow opts b c = .ok (t, c')) : t ≠ .Token .StreamEnd := by
  unfold scanFlow at h
  split at h
  · obtain ⟨⟨_, _⟩, _, h⟩ := Out.bind_eq_ok.1 h
    simp only [Out.ok.injEq, Prod.mk.injEq] at h
    rw [← h.1]
    simp
  · obtain ⟨⟨t', _⟩, h', h⟩ := Out.bind_eq_ok.1 h
    simp only [Out.ok.injEq, Prod.mk.injEq] at h
    rw [← h.1]
    obtain ⟨d, st, rfl⟩ := Sim.into_scalar (l := .flow opts c.buf c.stats b) (t := t') (by simp only [Lazy.intoToken]; exact Out.bind_eq_ok.2 ⟨_, h', rfl⟩)
    simp

theorem plain_open {c c' : Cur} {t : MaybeToken} {i : Nat} {b : Bool} (h : scanPlain opts i b c = .ok (t, c')) : t ≠ .Token .StreamEnd := by
  unfold scanPlain at h
  split at h
  · obtain ⟨⟨_, _⟩, _, h⟩ := Out.bind_eq_ok.1 h
    simp only [Out.ok.injEq, Prod.mk.injEq] at h
    rw [← h.1]
    simp
  · obtain ⟨⟨t', _⟩, h', h⟩ := Out.bind_eq_ok.1 h
    simp only [Out.ok.injEq, Prod.mk.injEq] at h
    rw [← h.1]
    obtain ⟨d, st, rfl⟩ := Sim.into_scalar (l := .plain opts c.buf c.stats i b) (t := t') (by simp only [Lazy.intoToken]; exact Out.bind_eq_ok.2 ⟨_, h', rfl⟩)
    simp

theorem block_open {c c' : Cur} {t : MaybeToken} {i : Nat} {b : Bool} (h : scanBlock opts i b c = .ok (t, c')) : t ≠ .Token .StreamEnd := by
  unfold scanBlock at h
  split at h
  · obtain ⟨⟨_, _⟩, _, h⟩ := Out.bind_eq_ok.1 h
    simp only [Out.ok.injEq, Prod.mk.injEq] at h
    rw [← h.1]
    simp
  · obtain ⟨⟨t', _⟩, h', h⟩ := Out.bind_eq_ok.1 h
    simp only [Out.ok.injEq, Prod.mk.injEq] at h
    rw [← h.1]
    obtain ⟨d, st, rfl⟩ := Sim.into_scalar (l := .block opts c.buf c.stats i b) (t := t') (by simp only [Lazy.intoToken]; exact Out.bind_eq_ok.2 ⟨_, h', rfl⟩)
    simp


theorem run_stay (f : Scan.Fetch) : Stay (Scan.run opts f) := by
  cases f with
  | directive =>
    refine Stay.sub fun c a h => ?_
    exact Stay.unroll.bind fun _ => Stay.removeKey.bind fun _ => (Stay.upd (by intro; rfl)).bind fun _ => Stay.get.bind fun _ =>
      Stay.commit.bind fun _ => .push (directive_open (c' := a.2) h)
  | marker b =>
    exact Stay.unroll.bind fun _ => Stay.removeKey.bind fun _ => (Stay.upd (by intro; rfl)).bind fun _ => Stay.advance.bind fun _ => .push (by cases b <;> simp)
  | flowStart b =>
    exact (Stay.upd (by intro; rfl)).bind fun _ => Stay.advance.bind fun _ => (Stay.push (by cases b <;> simp)).bind fun _ => Stay.saveKey.bind fun _ => .upd (by intro; rfl)
  | flowEnd b =>
    exact Stay.removeKey.bind fun _ => Stay.get.bind fun _ => Stay.lift.bind fun _ => (Stay.upd (by intro; rfl)).bind fun _ => Stay.advance.bind fun _ => .push (by cases b <;> simp)
  | flowEntry => exact Stay.removeKey.bind fun _ => (Stay.upd (by intro; rfl)).bind fun _ => Stay.advance.bind fun _ => .push (by simp)
  | blockEntry =>
    exact (Stay.get.bind fun _ => .ite .rollHere .fail).bind fun _ => (Stay.upd (by intro; rfl)).bind fun _ => Stay.removeKey.bind fun _ =>
      (Stay.upd (by intro; rfl)).bind fun _ => Stay.advance.bind fun _ => .push (by simp)
  | explicitKey =>
    exact Stay.get.bind fun _ => (Stay.get.bind fun _ => .ite (.ite .fail .rollHere) .pure).bind fun _ => Stay.removeKey.bind fun _ =>
      (Stay.upd (by intro; rfl)).bind fun _ => Stay.advance.bind fun _ => .push (by simp)
  | value =>
    refine Stay.takeKey.bind fun k => Stay.bind ?_ fun _ => Stay.advance.bind fun _ => .push (by simp)
    cases k with
    | none => exact .valueBare
    | some k => exact .ite (Stay.rollIndent.bind fun _ => (Stay.enqueue (by simp)).bind fun _ => .upd (by intro; rfl)) .valueBare
  | anchor => exact Stay.get.bind fun _ => .sub fun c a h => .finish (by simpa using anchor_open (c' := a.2) h)
  | tag => exact .sub fun c a h => .finish (by simpa using tag_open (c' := a.2) h)
  | block b => exact Stay.removeKey.bind fun _ => (Stay.upd (by intro; rfl)).bind fun _ => Stay.get.bind fun _ => .sub fun c a h => Stay.commit.bind fun _ => .enqueue (block_open (c' := a.2) h)
  | quoted => exact Stay.get.bind fun _ => .sub fun c a h => .finish (quoted_open (c' := a.2) h)
  | plain => exact Stay.get.bind fun _ => .sub fun c a h => Stay.saveKey.bind fun _ => (Stay.upd (by intro; rfl)).bind fun _ => Stay.commit.bind fun _ => .enqueue (plain_open (c' := a.2) h)
  | unknown => exact .fail

/-- The stream goes on, or its end was reached. -/
def Fin (m : Scan Unit) : Prop := ∀ s, s.sc.state ≠ .Done →
  ((m s).1 = .ok () ∧ (m s).2.sc.state = .Done) ∨ ((m s).2.sc.state ≠ .Done ∧ ∃ l, (m s).2.out = s.out ++ l ∧ ∀ e ∈ l, Open e)

theorem Stay.fin {m : Scan Unit} (h : Stay m) : Fin m := fun s hs => .inr ⟨by rw [(h s).1]; exact hs, (h s).2⟩

theorem Fin.bind {m : Scan α} {f : α → Scan Unit} (h : Stay m) (h' : ∀ a, Fin (f a)) : Fin (m >>= f) := by
  intro s hs
  obtain ⟨h1, l, h2, h3⟩ := h s
  simp only [Bind.bind, SO.bind]
  generalize m s = r at h1 h2
  obtain ⟨o, s1⟩ := r
  simp only at h1 h2
  cases o with
  | ok a =>
    rcases h' a s1 (by rw [h1]; exact hs) with k | ⟨k1, l', k2, k3⟩
    · exact .inl k
    · refine .inr ⟨k1, l ++ l', by rw [k2, h2, List.append_assoc], fun e he => ?_⟩
      rcases List.mem_append.1 he with he | he
      · exact h3 e he
      · exact k3 e he
  | _ => exact .inr ⟨by rw [h1]; exact hs, l, h2, h3⟩

theorem Fin.ite {c : Prop} [Decidable c] {m m' : Scan Unit} (h : Fin m) (h' : Fin m') : Fin (if c then m else m') := by
  split
  · exact h
  · exact h'

theorem step_fin : Fin (Scan.scanNextToken opts) := by
  refine Fin.bind Stay.get fun s => .ite ?_ (Fin.bind Stay.prepare fun _ => Fin.bind Stay.get fun s => .ite ?_ (Fin.bind Stay.lift fun _ => (run_stay _).fin))
  · intro s hs
    exact .inr ⟨by simp [Scan.fetchStreamStart, Scan.upd, Scan.push, Scan.enqueue, bind, SO.bind, SO.modify, Scan.get, SO.get],
      [⟨.Token (.StreamStart .UTF8), s.sc.stats.read⟩], rfl, by simp [Open]⟩
  · refine Fin.bind Stay.get fun s => .ite Stay.pure.fin (.ite (Fin.bind Stay.unroll fun _ => Fin.bind Stay.removeKey fun _ => ?_) Stay.pure.fin)
    intro s hs
    exact .inl ⟨rfl, rfl⟩

theorem Bad.stream {buf : Str} {sc : Scanner} (h : Bad opts buf sc) : sc.state = .Stream := by
  cases h <;> assumption

/-- The scanner fails on the rest of the text. -/
def Stuck (opts : SFlags) (base : Str) (sc : Scanner) : Prop := isBoundary base sc.offset = true ∧ Bad opts (base.drop sc.offset) sc

/-- A scan: it gets to the end, or the stream goes on. -/
theorem loop_fin {base : Str} : ∀ fuel (sc : Scanner) (out : List TokenEntry), sc.state ≠ .Done → Chunk.ZeroedIn sc.context → (∀ e ∈ out, Open e) →
    ((∀ e, (scanLoop opts base fuel sc out).1 ≠ .err e) ∧ (scanLoop opts base fuel sc out).2.1.state = .Done) ∨
    ((scanLoop opts base fuel sc out).2.1.state ≠ .Done ∧ Chunk.ZeroedIn (scanLoop opts base fuel sc out).2.1.context ∧ (∀ e ∈ (scanLoop opts base fuel sc out).2.2, Open e) ∧
      ((scanLoop opts base fuel sc out).1 = .ok () → (scanLoop opts base fuel sc out).2.2 ≠ []) ∧
      ∀ e, (scanLoop opts base fuel sc out).1 = .err e → ¬ Passing e → Stuck opts base (scanLoop opts base fuel sc out).2.1)
  | 0, sc, out, hs, hz, ho => .inr ⟨hs, hz, ho, nofun, nofun⟩
  | fuel + 1, sc, out, hs, hz, ho => by
    rw [scanLoop]
    split
    · split
      · rename_i hb
        have hf := step_fin (opts := opts) ⟨sc, base.drop sc.offset, out⟩ hs
        have he : ∀ e s1, Scan.scanNextToken opts ⟨sc, base.drop sc.offset, out⟩ = (.err e, s1) → ¬ Passing e → Stuck opts base s1.sc := by
          intro e s1 h hp
          have hst : sc.state = .Stream := by
            cases h0 : sc.state with
            | Stream => rfl
            | Done => exact absurd h0 hs
            | Start =>
              exfalso
              unfold Scan.scanNextToken at h
              rw [bind_run (m := Scan.get) (a := ⟨sc, base.drop sc.offset, out⟩) (s1 := ⟨sc, base.drop sc.offset, out⟩) rfl, if_pos (by simp [h0])] at h
              simp [Scan.fetchStreamStart, Scan.upd, Scan.push, Scan.enqueue, bind, SO.bind, SO.modify, Scan.get, SO.get] at h
          obtain ⟨h1, h2⟩ := step_first (s := ⟨sc, base.drop sc.offset, out⟩) hst hz hp h
          simp only at h1 h2
          exact ⟨by rw [h2]; exact hb, by rw [h2]; exact h1⟩
        have hk := Chunk.Keeps.scanNextToken (o := opts) ⟨sc, base.drop sc.offset, out⟩ hz
        generalize Scan.scanNextToken opts ⟨sc, base.drop sc.offset, out⟩ = r at hf he hk
        obtain ⟨o, s1⟩ := r
        have hall : (∃ l, s1.out = out ++ l ∧ ∀ e ∈ l, Open e) → ∀ e ∈ s1.out, Open e := by
          rintro ⟨l, h1, h2⟩ e hm
          rw [h1] at hm
          rcases List.mem_append.1 hm with hm | hm
          · exact ho e hm
          · exact h2 e hm
        cases o with
        | ok u =>
          simp only at hf ⊢
          rcases hf with ⟨-, hf⟩ | ⟨h1, h2⟩
          · left
            cases fuel with
            | zero => exact ⟨nofun, hf⟩
            | succ fuel =>
              rw [scanLoop_done (sc := { s1.sc with offset := base.length - s1.buf.length }) hf]
              exact ⟨nofun, hf⟩
          · exact loop_fin fuel { s1.sc with offset := base.length - s1.buf.length } s1.out h1 hk (hall h2)
        | err e =>
          simp only at hf ⊢
          rcases hf with ⟨h, -⟩ | ⟨h1, h2⟩
          · cases h
          · split
            · rename_i hx
              exact .inr ⟨h1, hk, hall h2, nofun, fun e' h hp => by cases h; exact absurd (.inr hx) hp⟩
            · exact .inr ⟨h1, hk, hall h2, nofun, fun e' h hp => by cases h; exact he _ _ rfl hp⟩
        | panic =>
          simp only at hf ⊢
          rcases hf with ⟨h, -⟩ | ⟨h1, h2⟩
          · cases h
          · exact .inr ⟨h1, hk, hall h2, nofun, nofun⟩
        | diverge =>
          simp only at hf ⊢
          rcases hf with ⟨h, -⟩ | ⟨h1, h2⟩
          · cases h
          · exact .inr ⟨h1, hk, hall h2, nofun, nofun⟩
      · exact loop_fin fuel sc out hs hz ho
    · rename_i hc
      refine .inr ⟨hs, hz, ho, fun _ h => hc ?_, nofun⟩
      simp only at h
      simp [hs, h]

theorem loop_keeps {base : Str} : ∀ fuel (sc : Scanner) (out : List TokenEntry), Chunk.ZeroedIn sc.context →
    Chunk.ZeroedIn (scanLoop opts base fuel sc out).2.1.context
  | 0, sc, out, hz => hz
  | fuel + 1, sc, out, hz => by
    rw [scanLoop]
    split
    · split
      · have hk := Chunk.Keeps.scanNextToken (o := opts) ⟨sc, base.drop sc.offset, out⟩ hz
        generalize Scan.scanNextToken opts ⟨sc, base.drop sc.offset, out⟩ = r at hk
        obtain ⟨o, s1⟩ := r
        cases o with
        | ok u => exact loop_keeps fuel { s1.sc with offset := base.length - s1.buf.length } s1.out hk
        | err e =>
          simp only
          split <;> exact hk
        | panic => exact hk
        | diverge => exact hk
      · exact loop_keeps fuel sc out hz
    · exact hz

/-- A scan that is stuck. -/
theorem loop_stuck {base : Str} (hx : opts.extendable = false) {sc : Scanner} (h : Stuck opts base sc) (fuel : Nat) :
    ∃ e sc' out, scanLoop opts base (fuel + 1) sc [] = (.err e, sc', out) ∧ Stuck opts base sc' ∧ ∀ t ∈ out, t.wrap = .Token .BlockEnd := by
  obtain ⟨hb, h⟩ := h
  obtain ⟨e, s', l, h1, h2, h3, h4, h5, h6⟩ := step_again (s := ⟨sc, base.drop sc.offset, []⟩) hx h
  simp only [List.nil_append] at h4 h5
  refine ⟨e, s'.sc, s'.out, ?_, ⟨by rw [h4]; exact hb, by rw [h4]; exact h3⟩, by rw [h5]; exact h6⟩
  rw [scanLoop, if_pos (by simp [h.stream]), if_pos hb, h1]
  simp only [h2, ↓reduceIte]

/-! ### Readers -/

section
variable {σ : Type} {drive : Drive σ}

/-- What a call does. -/
theorem op_cases (op : ROp) (p : PeekReader σ) :
    (∃ e q, p.peeked = some e ∧ op.run drive p = (.ok (some e), q) ∧ q.reader = p.reader ∧ ∀ x, q.peeked = some x → x = e) ∨
    (p.peeked = none ∧ p.reader.isExhausted = true ∧ op.run drive p = (.ok none, p)) ∨
    (p.peeked = none ∧ p.reader.queue.isEmpty = false ∧ ∃ q, op.run drive p = (.ok p.reader.queue.pop.1, q) ∧
      q.reader = { p.reader with queue := p.reader.queue.pop.2 } ∧ ∀ x, q.peeked = some x → p.reader.queue.pop.1 = some x) ∨
    (p.peeked = none ∧ p.reader.queue.isEmpty = true ∧ ∃ b s' q, drive p.reader.src = (.ok (), b, s') ∧
      op.run drive p = (.ok (b.foldl Queue.push p.reader.queue).pop.1, q) ∧
      q.reader = { src := s', queue := (b.foldl Queue.push p.reader.queue).pop.2, exhausted := p.reader.queue.len == (b.foldl Queue.push p.reader.queue).len } ∧
      ∀ x, q.peeked = some x → (b.foldl Queue.push p.reader.queue).pop.1 = some x) ∨
    (p.peeked = none ∧ p.reader.queue.isEmpty = true ∧ ∃ o b s' q, drive p.reader.src = (o, b, s') ∧ (∀ u, o ≠ .ok u) ∧
      (op.run drive p).2 = q ∧ (∀ e, (op.run drive p).1 = .err e ↔ o = .err e) ∧ ((op.run drive p).1 = .panic ↔ o = .panic) ∧ (∀ t, (op.run drive p).1 ≠ .ok t) ∧
      q.reader = { p.reader with src := s', queue := b.foldl Queue.push p.reader.queue } ∧ q.peeked = none) := by
  cases hp : p.peeked with
  | some e =>
    left
    cases op with
    | peek => exact ⟨e, p, rfl, by simp [ROp.run, PeekReader.peek, hp], rfl, fun x h => by rw [hp] at h; cases h; rfl⟩
    | pop => exact ⟨e, { p with peeked := none }, rfl, by simp [ROp.run, PeekReader.pop, hp], rfl, fun x h => by cases h⟩
  | none =>
    right
    by_cases hx : p.reader.isExhausted = true
    · left
      refine ⟨rfl, hx, ?_⟩
      cases op <;> simp [ROp.run, PeekReader.peek, PeekReader.pop, hp, hx]
    · right
      have hx' : p.reader.isExhausted = false := by simpa using hx
      cases hq : p.reader.queue.isEmpty with
      | false =>
        left
        refine ⟨rfl, rfl, ?_⟩
        cases op with
        | peek =>
          refine ⟨{ peeked := p.reader.queue.pop.1, reader := { p.reader with queue := p.reader.queue.pop.2 } }, ?_, rfl, fun _ h => h⟩
          simp [ROp.run, PeekReader.peek, PeekReader.takeNext, hp, hx', hq]
        | pop =>
          refine ⟨{ peeked := none, reader := { p.reader with queue := p.reader.queue.pop.2 } }, ?_, rfl, fun _ h => by cases h⟩
          simp [ROp.run, PeekReader.pop, PeekReader.takeNext, hp, hx', hq]
      | true =>
        right
        generalize hd : drive p.reader.src = d
        obtain ⟨o, b, s'⟩ := d
        cases o with
        | ok u =>
          left
          refine ⟨rfl, rfl, b, s', ?_⟩
          cases op with
          | peek =>
            refine ⟨{ peeked := (b.foldl Queue.push p.reader.queue).pop.1, reader := { src := s', queue := (b.foldl Queue.push p.reader.queue).pop.2, exhausted := p.reader.queue.len == (b.foldl Queue.push p.reader.queue).len } }, rfl, ?_, rfl, fun _ h => h⟩
            simp [ROp.run, PeekReader.peek, PeekReader.takeNext, Reader.scanTokens, hp, hx', hq, hd]
          | pop =>
            refine ⟨{ peeked := none, reader := { src := s', queue := (b.foldl Queue.push p.reader.queue).pop.2, exhausted := p.reader.queue.len == (b.foldl Queue.push p.reader.queue).len } }, rfl, ?_, rfl, fun _ h => by cases h⟩
            simp [ROp.run, PeekReader.pop, PeekReader.takeNext, Reader.scanTokens, hp, hx', hq, hd]
        | _ =>
          right
          refine ⟨rfl, rfl, _, b, s', { p with reader := { p.reader with src := s', queue := b.foldl Queue.push p.reader.queue } }, rfl, nofun, ?_⟩
          cases op <;> simp [ROp.run, PeekReader.peek, PeekReader.pop, PeekReader.takeNext, Reader.scanTokens, hp, hx', hq, hd]

/-- No end of the stream is waiting. -/
def Waits (S : TokenEntry → Prop) (p : PeekReader σ) : Prop := (∀ e, p.peeked = some e → S e) ∧ ∃ l, Queue.Rep p.reader.queue l ∧ ∀ e ∈ l, S e

theorem rep_taken {q : Queue TokenEntry} {l : List TokenEntry} {S : TokenEntry → Prop} (h : Queue.Rep q l) (hl : ∀ e ∈ l, S e) :
    (∀ e, q.pop.1 = some e → S e) ∧ (q.pop.1 = none → l = []) ∧ ∃ l', Queue.Rep q.pop.2 l' ∧ ∀ e ∈ l', S e := by
  obtain ⟨l', h1, h2⟩ := Queue.rep_pop h
  generalize hr : q.pop.1 = r at h1
  cases h1 with
  | empty => exact ⟨nofun, fun _ => rfl, [], h2, nofun⟩
  | least pre x post hb ha =>
    refine ⟨fun e h => by cases h; exact hl _ (by simp), nofun, pre ++ post, h2, fun e he => hl e ?_⟩
    simp only [List.mem_append, List.mem_cons] at he ⊢
    rcases he with he | he
    · exact .inl he
    · exact .inr (.inr he)

theorem rep_filled {q : Queue TokenEntry} {l b : List TokenEntry} {S : TokenEntry → Prop} (h : Queue.Rep q l) (hl : ∀ e ∈ l, S e) (hb : ∀ e ∈ b, S e) :
    ∃ l', Queue.Rep (b.foldl Queue.push q) l' ∧ ∀ e ∈ l', S e :=
  ⟨l ++ b, Queue.rep_foldl h b, fun e he => by
    rcases List.mem_append.1 he with he | he
    · exact hl e he
    · exact hb e he⟩

end

variable {data : Str}

/-- The reader has not seen the end of the text. -/
structure Alive (p : PeekReader Scanner) : Prop where
  waits : Waits Open p
  more : p.reader.exhausted = false
  state : p.reader.src.state ≠ .Done
  zero : Chunk.ZeroedIn p.reader.src.context

/-- The reader will not see it. -/
structure Dead (opts : SFlags) (data : Str) (p : PeekReader Scanner) : Prop where
  waits : Waits Open p
  more : p.reader.exhausted = false
  stuck : Stuck { opts with extendable := false } data p.reader.src
  zero : Chunk.ZeroedIn p.reader.src.context

theorem Dead.alive {p : PeekReader Scanner} (h : Dead opts data p) : Alive p := ⟨h.waits, h.more, by rw [h.stuck.2.stream]; nofun, h.zero⟩

theorem op_alive {op : ROp} {p : PeekReader Scanner} (h : Alive p) :
    (Alive (op.run (borrowDrive opts data) p).2 ∧ (∀ t, (op.run (borrowDrive opts data) p).1 = .ok t → ∃ e, t = some e ∧ Open e) ∧
      ∀ e, (op.run (borrowDrive opts data) p).1 = .err (.Scanner e) → ¬ Passing e → Dead opts data (op.run (borrowDrive opts data) p).2) ∨
    ((∀ e, (op.run (borrowDrive opts data) p).1 ≠ .err e) ∧ (op.run (borrowDrive opts data) p).2.reader.src.state = .Done) := by
  obtain ⟨⟨hw, l, hr, hl⟩, hm, hs, hz⟩ := h
  rcases op_cases (drive := borrowDrive opts data) op p with ⟨e, q, h1, h2, h3, h4⟩ | ⟨-, h1, -⟩ | ⟨-, hq, q, h1, h2, h3⟩ | ⟨-, hq, b, s', q, h1, h2, h3, h4⟩ | ⟨-, hq, o, b, s', q, h1, h2, h3, h4, h5, h6, h7, h8⟩
  · rw [h2]
    refine .inl ⟨⟨⟨fun x hx => by rw [h4 x hx]; exact hw e h1, l, by rw [h3]; exact hr, hl⟩, by rw [h3]; exact hm, by rw [h3]; exact hs, by rw [h3]; exact hz⟩, fun t ht => ?_, nofun⟩
    cases ht
    exact ⟨e, rfl, hw e h1⟩
  · simp [Reader.isExhausted, hm] at h1
  · rw [h1]
    obtain ⟨k1, k2, l', k3, k4⟩ := rep_taken hr hl
    refine .inl ⟨⟨⟨fun x hx => k1 x (h3 x hx), l', by rw [h2]; exact k3, k4⟩, by rw [h2]; exact hm, by rw [h2]; exact hs, by rw [h2]; exact hz⟩, fun t ht => ?_, nofun⟩
    cases ht
    cases hp : p.reader.queue.pop.1 with
    | some e => exact ⟨e, rfl, k1 e hp⟩
    | none =>
      have hlen := hr.len
      rw [k2 hp] at hlen
      simp [Queue.isEmpty, Queue.len] at hq hlen
      exact absurd hlen hq
  · rw [h2]
    have hf := loop_fin (opts := { opts with extendable := false }) (base := data) (data.length + 3) p.reader.src [] hs hz nofun
    unfold borrowDrive scanTokens at h1
    generalize scanLoop { opts with extendable := false } data (data.length + 3) p.reader.src [] = r at hf h1
    obtain ⟨o, sc, out⟩ := r
    cases o <;> simp only [Prod.mk.injEq, true_and, reduceCtorEq, false_and] at h1
    obtain ⟨rfl, rfl⟩ := h1
    rcases hf with ⟨-, hf⟩ | ⟨f1, fz, f2, f3, f4⟩
    · exact .inr ⟨nofun, by rw [h3]; exact hf⟩
    · obtain ⟨l', hr', hl'⟩ := rep_filled hr hl f2
      obtain ⟨k1, k2, l'', k3, k4⟩ := rep_taken hr' hl'
      have hlen : (out.foldl Queue.push p.reader.queue).len = p.reader.queue.len + out.length := foldl_push_length _ _
      have hpos : 0 < out.length := List.length_pos_iff.2 (f3 rfl)
      refine .inl ⟨⟨⟨fun x hx => k1 x (h4 x hx), l'', by rw [h3]; exact k3, k4⟩, ?_, by rw [h3]; exact f1, by rw [h3]; exact fz⟩, fun t ht => ?_, nofun⟩
      · rw [h3, hlen]
        simp only [beq_eq_false_iff_ne, ne_eq]
        omega
      · cases ht
        cases hp : (out.foldl Queue.push p.reader.queue).pop.1 with
        | some e => exact ⟨e, rfl, k1 e hp⟩
        | none =>
          have h0 := hr'.len
          rw [k2 hp, hlen] at h0
          simp only [List.length_nil] at h0
          omega
  · have hf := loop_fin (opts := { opts with extendable := false }) (base := data) (data.length + 3) p.reader.src [] hs hz nofun
    unfold borrowDrive scanTokens at h1
    generalize scanLoop { opts with extendable := false } data (data.length + 3) p.reader.src [] = r at hf h1
    obtain ⟨o', sc, out⟩ := r
    have ho : (∀ e, o = .err e ↔ ∃ e', o' = .err e' ∧ e = .Scanner e') ∧ out = b ∧ sc = s' := by
      cases o' <;> simp only [Prod.mk.injEq] at h1 <;> obtain ⟨rfl, rfl, rfl⟩ := h1 <;> simp
      exact fun e => eq_comm
    obtain ⟨ho, rfl, rfl⟩ := ho
    rw [h3]
    rcases hf with ⟨f1, hf⟩ | ⟨f1, fz, f2, f3, f4⟩
    · refine .inr ⟨fun e he => ?_, by rw [h7]; exact hf⟩
      obtain ⟨e', k, -⟩ := (ho e).1 ((h4 e).1 he)
      exact f1 e' k
    · obtain ⟨l', hr', hl'⟩ := rep_filled hr hl f2
      have hA : Waits Open q := ⟨fun x hx => (by rw [h8] at hx; cases hx), l', by rw [h7]; exact hr', hl'⟩
      refine .inl ⟨⟨hA, by rw [h7]; exact hm, by rw [h7]; exact f1, by rw [h7]; exact fz⟩, fun t ht => absurd ht (h6 t), fun e he hp => ?_⟩
      obtain ⟨e', k, hk⟩ := (ho _).1 ((h4 _).1 he)
      cases hk
      exact ⟨hA, by rw [h7]; exact hm, by rw [h7]; exact f4 e k hp, by rw [h7]; exact fz⟩

theorem op_dead {op : ROp} {p : PeekReader Scanner} (h : Dead opts data p) :
    Dead opts data (op.run (borrowDrive opts data) p).2 ∧
    ((∃ e, (op.run (borrowDrive opts data) p).1 = .ok (some e) ∧ Open e) ∨ ∃ e, (op.run (borrowDrive opts data) p).1 = .err (.Scanner e)) := by
  obtain ⟨⟨hw, l, hr, hl⟩, hm, hs, hz⟩ := h
  rcases op_cases (drive := borrowDrive opts data) op p with ⟨e, q, h1, h2, h3, h4⟩ | ⟨-, h1, -⟩ | ⟨-, hq, q, h1, h2, h3⟩ | ⟨-, hq, b, s', q, h1, h2, h3, h4⟩ | ⟨-, hq, o, b, s', q, h1, h2, h3, h4, h5, h6, h7, h8⟩
  · rw [h2]
    exact ⟨⟨⟨fun x hx => by rw [h4 x hx]; exact hw e h1, l, by rw [h3]; exact hr, hl⟩, by rw [h3]; exact hm, by rw [h3]; exact hs, by rw [h3]; exact hz⟩, .inl ⟨e, rfl, hw e h1⟩⟩
  · simp [Reader.isExhausted, hm] at h1
  · rw [h1]
    obtain ⟨k1, k2, l', k3, k4⟩ := rep_taken hr hl
    refine ⟨⟨⟨fun x hx => k1 x (h3 x hx), l', by rw [h2]; exact k3, k4⟩, by rw [h2]; exact hm, by rw [h2]; exact hs, by rw [h2]; exact hz⟩, .inl ?_⟩
    cases hp : p.reader.queue.pop.1 with
    | some e => exact ⟨e, rfl, k1 e hp⟩
    | none =>
      have hlen := hr.len
      rw [k2 hp] at hlen
      simp [Queue.isEmpty, Queue.len] at hq hlen
      exact absurd hlen hq
  · obtain ⟨e, sc', out, f1, f2, f3⟩ := loop_stuck (opts := { opts with extendable := false }) rfl hs (data.length + 2)
    unfold borrowDrive scanTokens at h1
    rw [f1] at h1
    simp at h1
  · obtain ⟨e, sc', out, f1, f2, f3⟩ := loop_stuck (opts := { opts with extendable := false }) rfl hs (data.length + 2)
    unfold borrowDrive scanTokens at h1
    have fz := loop_keeps (opts := { opts with extendable := false }) (base := data) (data.length + 3) p.reader.src [] hz
    rw [f1] at h1 fz
    simp only [Prod.mk.injEq] at h1
    obtain ⟨rfl, rfl, rfl⟩ := h1
    obtain ⟨l', hr', hl'⟩ := rep_filled hr hl (b := out) (fun e he => by unfold Open; rw [f3 e he]; simp)
    rw [h3]
    exact ⟨⟨⟨fun x hx => (by rw [h8] at hx; cases hx), l', by rw [h7]; exact hr', hl'⟩, by rw [h7]; exact hm, by rw [h7]; exact f2, by rw [h7]; exact fz⟩, .inr ⟨e, (h4 _).2 rfl⟩⟩

theorem op_ended {op : ROp} {p : PeekReader Scanner} (h : p.reader.src.state = .Done) :
    (op.run (borrowDrive opts data) p).2.reader.src.state = .Done ∧ ∃ t, (op.run (borrowDrive opts data) p).1 = .ok t := by
  rcases op_cases (drive := borrowDrive opts data) op p with ⟨e, q, h1, h2, h3, h4⟩ | ⟨-, h1, h2⟩ | ⟨-, hq, q, h1, h2, h3⟩ | ⟨-, hq, b, s', q, h1, h2, h3, h4⟩ | ⟨-, hq, o, b, s', q, h1, h2, h3, h4, h5, h6, h7, h8⟩
  · rw [h2]; exact ⟨by rw [h3]; exact h, _, rfl⟩
  · rw [h2]; exact ⟨h, _, rfl⟩
  · rw [h1]; exact ⟨by rw [h2]; exact h, _, rfl⟩
  · rw [borrow_done h] at h1
    cases h1
    rw [h2]
    exact ⟨by rw [h3]; exact h, _, rfl⟩
  · rw [borrow_done h] at h1
    cases h1
    exact absurd rfl (h2 ())

end Yary.Final
