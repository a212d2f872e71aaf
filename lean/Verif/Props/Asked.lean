import Verif.Proof.Asked
import Verif.Props.Events
import Verif.Props.Misc

/-! # C67: the flag decides whether scalars are evaluated -/

namespace Yary

open Spec

/-- A scalar of a stream that was asked to be lazy, or not to be. Scalars that are left out are empty, and there is nothing to evaluate. -/
def ScalarAsAsked (f : Flags) (c : ScalarLike) : Prop :=
  if f.contains Flags.lazyFlag then (∃ l, c = .Lazy l) ∨ c = .empty else ∃ v, c = .Eager v

theorem asScanner_lazy (f : Flags) : f.asScanner.lazy = f.contains Flags.lazyFlag := by
  unfold Flags.asScanner
  cases h : f.contains Flags.lazyFlag <;> simp

theorem asAsked_of {f : Flags} {c : ScalarLike}
    (h : c = .empty ∨ (f.asScanner.lazy = false ∧ ∃ v, c = .Eager v) ∨ f.asScanner.lazy = true ∧ ∃ l, c = .Lazy l) : ScalarAsAsked f c := by
  rw [asScanner_lazy] at h
  unfold ScalarAsAsked
  cases hf : f.contains Flags.lazyFlag
  · rw [hf] at h
    rcases h with rfl | ⟨-, h⟩ | ⟨h, -⟩
    · exact ⟨_, rfl⟩
    · exact h
    · cases h
  · rw [hf] at h
    rcases h with rfl | ⟨h, -⟩ | ⟨-, h⟩
    · exact .inr rfl
    · cases h
    · exact .inl h

/-- **C67** for texts. -/
theorem C67_text {src : BorrowReader} {f : Flags} {es : List Event} {s : Events Scanner} (h : Yields (Events.textDrive src f) Events.ofText es s)
    {a b : Nat} {n : Node} {c : ScalarLike} (he : ⟨a, b, .Scalar n c⟩ ∈ es) : ScalarAsAsked f c :=
  asAsked_of (Asked.events_as (fun _ => Asked.borrow_as) h he)

/-- **C67** for sources that are read. -/
theorem C67_read {src : Owned} {f : Flags} {es : List Event} {s : Events (Owned × Scanner)} (h : Yields (Events.readDrive f) (Events.ofRead src) es s)
    {a b : Nat} {n : Node} {c : ScalarLike} (he : ⟨a, b, .Scalar n c⟩ ∈ es) : ScalarAsAsked f c :=
  asAsked_of (Asked.events_as (fun s => Asked.owned_as _ _ _ _ fun e he => by cases he) h he)

/-- Which scalars there are: `true` if deferred. -/
def deferredOf (es : List Event) : List Bool :=
  es.filterMap fun e => match e.data with
    | .Scalar _ (.Lazy _) => some true
    | .Scalar _ (.Eager _) => some false
    | _ => none

example : ∃ s, Yields (Events.textDrive (fromUtf8 "a: 'b'\nc: |\n d\n".toList) Flags.new) Events.ofText
      (collect (Events.textDrive (fromUtf8 "a: 'b'\nc: |\n d\n".toList) Flags.new) 40 40 Events.ofText).1 s ∧
    deferredOf (collect (Events.textDrive (fromUtf8 "a: 'b'\nc: |\n d\n".toList) Flags.new) 40 40 Events.ofText).1 = [false, false, false, false] ∧
    deferredOf (collect (Events.textDrive (fromUtf8 "a: 'b'\nc: |\n d\n".toList) (Flags.lazy Flags.new)) 40 40 Events.ofText).1 =
      [true, true, true, true] :=
  ⟨_, collect_yields 40 40 _, by decide +kernel, by decide +kernel⟩

example : deferredOf (collect (Events.readDrive (Flags.lazy Flags.new)) 40 40 (Events.ofRead (fromRead [(bytes! "{a: , \"b\"}", none)]))).1 =
      [true, false, true, false] ∧
    deferredOf (collect (Events.readDrive Flags.new) 40 40 (Events.ofRead (fromRead [(bytes! "{a: , \"b\"}", none)]))).1 =
      [false, false, false, false] := by decide +kernel

end Yary
