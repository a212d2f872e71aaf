import Verif.Proof.Chunk.Base
import Verif.Proof.Scan.Keys

/-! # Every step gives a token -/

namespace Yary.Chunk

open Scan

/-- The method takes no token back. -/
def Mono {α : Type} (m : Scan α) : Prop := ∀ s a s1, m s = (.ok a, s1) → s.out.length ≤ s1.out.length

/-- The method pushes a token. -/
def Pushes {α : Type} (m : Scan α) : Prop := ∀ s a s1, m s = (.ok a, s1) → s.out.length < s1.out.length

section
variable {α β : Type}

theorem Mono.bind {m : Scan α} {f : α → Scan β} (h : Mono m) (hf : ∀ a, Mono (f a)) : Mono (m >>= f) := by
  intro s b s2 hs
  obtain ⟨a, s1, h1, h2⟩ := bind_ok hs
  exact Nat.le_trans (h _ _ _ h1) (hf _ _ _ _ h2)

theorem Pushes.left {m : Scan α} {f : α → Scan β} (h : Pushes m) (hf : ∀ a, Mono (f a)) : Pushes (m >>= f) := by
  intro s b s2 hs
  obtain ⟨a, s1, h1, h2⟩ := bind_ok hs
  exact Nat.lt_of_lt_of_le (h _ _ _ h1) (hf _ _ _ _ h2)

theorem Pushes.right {m : Scan α} {f : α → Scan β} (h : Mono m) (hf : ∀ a, Pushes (f a)) : Pushes (m >>= f) := by
  intro s b s2 hs
  obtain ⟨a, s1, h1, h2⟩ := bind_ok hs
  exact Nat.lt_of_le_of_lt (h _ _ _ h1) (hf _ _ _ _ h2)

theorem Mono.get : Mono Scan.get := by
  intro s a s1 h
  obtain ⟨rfl, rfl⟩ := get_ok h
  exact Nat.le_refl _
theorem Mono.pure {a : α} : Mono (Pure.pure a : Scan α) := by
  intro s b s1 h
  rw [← show _ = s1 from congrArg Prod.snd h]
  exact Nat.le_refl _
theorem Mono.fail {e : ScanError} : Mono (SO.fail e : Scan α) := by
  intro s b s1 h
  cases h
theorem Mono.lift {x : Out ScanError α} : Mono (SO.lift x : Scan α) := by
  intro s b s1 h
  rw [← show _ = s1 from congrArg Prod.snd h]
  exact Nat.le_refl _
theorem Mono.upd {f : Scanner → Scanner} : Mono (upd f) := by
  intro s b s1 h
  rw [← show _ = s1 from congrArg Prod.snd h]
  exact Nat.le_refl _
theorem Pushes.enqueue {a : MaybeToken} {n : Nat} : Pushes (enqueue a n) := by
  intro s b s1 h
  rw [← show _ = s1 from congrArg Prod.snd h]
  simp [Scan.enqueue, SO.modify]
theorem Pushes.mono {m : Scan α} (h : Pushes m) : Mono m := fun s a s1 h1 => Nat.le_of_lt (h s a s1 h1)
theorem Mono.enqueue {a : MaybeToken} {n : Nat} : Mono (enqueue a n) := Pushes.enqueue.mono
theorem Pushes.push {a : Token} : Pushes (push a) := .right .get fun _ => .enqueue
theorem Mono.push {a : Token} : Mono (push a) := Pushes.push.mono
theorem Mono.takeKey : Mono takeKey := .bind .get fun _ => .bind .upd fun _ => .pure
theorem Mono.unrollIndent {c : Option Nat} : Mono (unrollIndent c) := by
  intro s b s1 h
  rw [← show _ = s1 from congrArg Prod.snd h]
  simp [Scan.unrollIndent, SO.modify]
theorem Mono.popZeroIndent : Mono popZeroIndent := by
  intro s b s1 h
  rw [← show _ = s1 from congrArg Prod.snd h]
  unfold Scan.popZeroIndent SO.modify
  dsimp only
  split
  · exact Nat.le_refl _
  · split
    · simp
    · exact Nat.le_refl _
theorem Mono.advance {n : Nat} : Mono (advance n) := by
  intro s b s1 h
  unfold Scan.advance Cur.adv at h
  by_cases hb : isBoundary s.buf n = true
  · simp only [if_pos hb] at h; cases h; exact Nat.le_refl _
  · simp only [if_neg hb] at h; cases h
theorem Mono.commit {b : Str} {m : MStats} : Mono (commit b m) := by
  intro s _ s1 h
  rw [commit_ok h]
  exact Nat.le_refl _
theorem Mono.sub {m : MStats} {f : Cur → Out ScanError α} : Mono (sub m f) := .bind .get fun _ => .lift

/-- Take the method apart. -/
macro "mono" : tactic => `(tactic| repeat' first
  | (with_reducible exact Mono.pure)
  | (with_reducible exact Mono.fail)
  | (with_reducible exact Mono.lift)
  | (with_reducible exact Mono.upd)
  | (with_reducible exact Mono.enqueue)
  | (with_reducible exact Mono.push)
  | (with_reducible exact Mono.takeKey)
  | (with_reducible exact Mono.unrollIndent)
  | (with_reducible exact Mono.popZeroIndent)
  | (with_reducible exact Mono.advance)
  | (with_reducible exact Mono.commit)
  | (with_reducible exact Mono.sub)
  | (with_reducible exact Mono.get)
  | (with_reducible assumption)
  | (with_reducible refine Mono.bind ?_ fun _ => ?_)
  | split)

theorem Mono.removeSavedKey : Mono removeSavedKey := by unfold Scan.removeSavedKey; mono
theorem Mono.saveKey : Mono saveKey := by
  have := Mono.removeSavedKey
  unfold Scan.saveKey; mono
theorem Mono.rollIndent {a b c : Nat} {map : Bool} : Mono (rollIndent a b c map) := by
  unfold Scan.rollIndent
  refine .bind .get fun s => ?_
  dsimp only
  generalize (if map = true then Token.BlockMappingStart else Token.BlockSequenceStart) = token
  mono
theorem Mono.rollHere {map : Bool} : Mono (rollHere map) := by
  unfold Scan.rollHere; exact .bind .get fun _ => .rollIndent
theorem Mono.expireKey : Mono expireKey := by unfold Scan.expireKey; mono
theorem Mono.prepare {o : SFlags} : Mono (prepare o) := by
  have := Mono.expireKey
  unfold Scan.prepare Scan.eatWhitespace; mono
theorem Pushes.finish {a : MaybeToken} {c : Cur} : Pushes (finish a c) := by
  unfold Scan.finish
  exact .right .saveKey fun _ => .right .upd fun _ => .right .get fun _ => .right .commit fun _ => .right .get fun _ =>
    .enqueue

theorem Pushes.run {o : SFlags} {f : Fetch} : Pushes (run o f) := by
  cases f with
  | directive =>
    exact .right .sub fun _ => .right .unrollIndent fun _ => .right .removeSavedKey fun _ => .right .upd fun _ =>
      .right .get fun _ => .right .commit fun _ => .push
  | marker b =>
    exact .right .unrollIndent fun _ => .right .removeSavedKey fun _ => .right .upd fun _ => .right .advance fun _ => .push
  | flowStart b =>
    exact .right .upd fun _ => .right .advance fun _ => .left .push fun _ => .bind .saveKey fun _ => .upd
  | flowEnd b =>
    exact .right .removeSavedKey fun _ => .right .get fun _ => .right .lift fun _ => .right .upd fun _ =>
      .right .advance fun _ => .push
  | flowEntry => exact .right .removeSavedKey fun _ => .right .upd fun _ => .right .advance fun _ => .push
  | blockEntry =>
    have : Mono blockEntryCheck := by
      have := Mono.rollHere (map := false)
      unfold blockEntryCheck; mono
    exact .right this fun _ => .right .upd fun _ => .right .removeSavedKey fun _ => .right .upd fun _ =>
      .right .advance fun _ => .push
  | explicitKey =>
    have : Mono explicitKeyCheck := by
      have := Mono.rollHere (map := true)
      unfold explicitKeyCheck; mono
    exact .right .get fun _ => .right this fun _ => .right .removeSavedKey fun _ => .right .upd fun _ =>
      .right .advance fun _ => .push
  | value =>
    have : ∀ k, Mono (valueKey k) := by
      intro k
      have := Mono.rollHere (map := true)
      unfold valueKey valueSaved valueBare valueCheck
      mono
      exact Mono.rollIndent
    exact .right .takeKey fun k => .right (this k) fun _ => .right .advance fun _ => .push
  | anchor => exact .right .get fun _ => .right .sub fun _ => .finish
  | tag => exact .right .sub fun _ => .finish
  | block fold =>
    exact .right .removeSavedKey fun _ => .right .upd fun _ => .right .get fun _ => .right .sub fun _ =>
      .right .commit fun _ => .enqueue
  | quoted => exact .right .get fun _ => .right .sub fun _ => .finish
  | plain =>
    exact .right .get fun _ => .right .sub fun _ => .right .saveKey fun _ => .right .upd fun _ => .right .commit fun _ =>
      .enqueue
  | unknown => exact fun _ _ _ h => by cases h

end

/-- A step before the end of the stream gives a token. -/
theorem scanNextToken_pushes {o : SFlags} {s s1 : SS} (hv : validUtf8 s.buf = true) (hd : s.sc.state ≠ .Done)
    (h : scanNextToken o s = (.ok (), s1)) : s.out.length < s1.out.length := by
  by_cases hst : s.sc.state = .Start
  · unfold scanNextToken at h
    obtain ⟨_, _, hg, h⟩ := bind_ok h
    obtain ⟨rfl, rfl⟩ := get_ok hg
    rw [if_pos (by rw [hst]; rfl)] at h
    unfold fetchStreamStart at h
    exact Pushes.right .upd (fun _ => .push) _ _ _ h
  · obtain ⟨s2, h2, h⟩ := step_cases h hst
    refine Nat.lt_of_le_of_lt (Mono.prepare _ _ _ h2) ?_
    have hr := ((closed_rest s.buf s.sc.offset).prepare (P := True) (opts := o) (.inl trivial)
      ⟨hv, ⟨[], rfl⟩, rfl, hd⟩).of_ok h2
    rcases h with ⟨hb, h⟩ | ⟨-, h⟩
    · have hd2 : s2.sc.state ≠ .Done := by rw [hr.2.2.1]; exact hd
      have hb := hb.resolve_right hd2
      unfold fetchStreamEnd at h
      obtain ⟨_, _, hg, h⟩ := bind_ok h
      obtain ⟨rfl, rfl⟩ := get_ok hg
      rw [if_neg (by simpa using hd2), if_pos (by rw [hb]; rfl)] at h
      exact Pushes.right .unrollIndent (fun _ => .right .removeSavedKey fun _ => .right .upd fun _ => .push) _ _ _ h
    · exact Pushes.run _ _ _ h

end Yary.Chunk
