import Verif.Proof.Slices
import Verif.Proof.Memory
import Verif.Props.Chunks

/-! # What tokens borrow stays where it is

`Model/Heap` has the reader of sources with its buffers in memory. -/

namespace Yary

open Spec

variable {room : Mem → Nat → Bool} {size : Nat → Nat → Nat} {opts : SFlags} {src : Source}

/-! ### C61 -/

/-- **C61**: a token that a reader of a source has handed out was scanned in a text which stays at its place in memory, as it was, whatever
calls follow, and whatever they report. -/
theorem C61_stays {ops : List ROp} {e : TokenEntry} (h : e ∈ handed (heldHistory room size opts src ops)) :
    ∃ v ∈ (heldAfter room size opts src ops).views, e ∈ v.tokens ∧
      ∀ more, Stored (heldAfter room size opts src (ops ++ more)).mem v.at_ v.text := by
  obtain ⟨v, hv, he⟩ := (Heap.after_sound src ops).2 e h
  exact ⟨v, hv, he, fun more => ((Heap.after_sound src (ops ++ more)).1.views v (Heap.after_views src ops more v hv)).2⟩

/-- In chunks of four bytes, with buffers that have room for two bytes at once: the scalars have been scanned in two texts, and in the
end all texts are still there, in blocks of their own. -/
example : let room : Mem → Nat → Bool := fun m a => match m.block a with | some s => s.length % 2 == 1 | none => false
    let o := heldAfter room (fun _ _ => 4) {} [(bytes! "- a\n- bc\n", none)] (List.replicate 9 .pop)
    kindsHanded (heldHistory room (fun _ _ => 4) {} [(bytes! "- a\n- bc\n", none)] (List.replicate 9 .pop)) =
        [.StreamStart, .BlockSequenceStart, .BlockEntry, .Scalar, .BlockEntry, .Scalar, .BlockEnd, .StreamEnd] ∧
      (o.views.filter fun v => v.tokens.any fun e => e.marker == .Scalar).map View.text = [bytes! "a\n- bc", bytes! "bc\n"] ∧
      o.views.all (fun v => match v.at_ with | some a => o.mem.block a == some v.text | none => v.text == []) = true ∧
      o.mem.next = 9 ∧ o.tail = [none, some 1, some 4, some 6] ∧ o.head = some 8 := by
  decide +kernel

/-- **C61**: no call ever uses a buffer that has been freed, or frees one twice; nor does dropping the reader, after which
nothing is left in memory. -/
theorem C61_safe (ops : List ROp) : (heldAfter room size opts src ops).mem.fault = false ∧
    (heldAfter room size opts src ops).drop.fault = false ∧ ∀ a, (heldAfter room size opts src ops).drop.block a = none :=
  ⟨(Heap.after_sound src ops).1.fault, Heap.drop_sound (Heap.after_sound src ops).1⟩

/-- Using a buffer after it has been freed would be noticed, as would freeing it twice. -/
example : ((({} : Mem).alloc (bytes! "a")).2.free (some 0)).fault = false ∧
    (((({} : Mem).alloc (bytes! "a")).2.free (some 0)).load (some 0)).2.fault = true ∧
    (((({} : Mem).alloc (bytes! "a")).2.free (some 0)).free (some 0)).fault = true := by
  decide +kernel

/-- **C61**: wherever buffers are, the calls report the same. -/
theorem C61_same (ops : List ROp) : heldHistory room size opts src ops = chunked size opts src ops := Heap.after_same src ops

/-- **C61**: in particular, if no call panics, the text from which a deferred scalar is to be evaluated is a part of one that stays where it is,
as it was. -/
theorem C61_deferred {ops : List ROp} (hn : NoPanic (heldHistory room size opts src ops)) {e : TokenEntry} {l : Lazy}
    (h : e ∈ handed (heldHistory room size opts src ops)) (hl : e.wrap = .Deferred l) :
    ∃ v ∈ (heldAfter room size opts src ops).views, e ∈ v.tokens ∧ (∃ p q, v.text = p ++ (sliceOf l ++ q)) ∧
      ∀ more, Stored (heldAfter room size opts src (ops ++ more)).mem v.at_ v.text := by
  obtain ⟨v, hv, he, hm⟩ := C61_stays h
  have := Slices.after_whole hn v hv e he
  rw [hl] at this
  exact ⟨v, hv, he, this, hm⟩

/-- The texts of deferred scalars. -/
def slicesHanded (h : List (ROp × Out ReaderError (Option TokenEntry))) : List Str :=
  (handed h).filterMap fun e => match e.wrap with | .Deferred l => some (sliceOf l) | .Token _ => none

/-- In chunks of eight bytes: the second scalar is in a text that was read after the first. -/
example : let h := heldHistory (fun _ _ => false) (fun _ _ => 8) ⟨true, true⟩ [(bytes! "- 'ab'\n- \"c\"\n", none)] (List.replicate 9 .pop)
    NoPanic h ∧ slicesHanded h = [bytes! "'ab'", bytes! "\"c\""] := by
  refine ⟨noPanic_of_decide ?_, ?_⟩ <;> decide +kernel

/-! ### C59 -/

/-- **C59**, deferred scalars: each has a part of the text, and copies nothing. -/
theorem C59_deferred {text : List Char} {ops : List ROp} (hn : NoPanic (history opts text ops)) {e : TokenEntry} {l : Lazy}
    (h : e ∈ handed (history opts text ops)) (hl : e.wrap = .Deferred l) : ∃ p q, utf8 text = p ++ (sliceOf l ++ q) := by
  have := Slices.borrow_parts hn e h
  rw [hl] at this
  exact this

/-- Deferred, scalars keep their quotes, indicators and line breaks, and plain ones what follows up to the next token. -/
example : NoPanic (history ⟨false, true⟩ "[ a , 'b''c' ]".toList (List.replicate 9 .pop)) ∧
    slicesHanded (history ⟨false, true⟩ "[ a , 'b''c' ]".toList (List.replicate 9 .pop)) = [bytes! "a ", bytes! "'b''c'"] ∧
    slicesHanded (history ⟨false, true⟩ "k: |\n  x\n  y\n".toList (List.replicate 9 .pop)) = [bytes! "k: ", bytes! "|\n  x\n  y\n"] := by
  refine ⟨noPanic_of_decide ?_, ?_, ?_⟩ <;> decide +kernel

/-! ### C63 -/

/-- The next buffer takes at least as many times 8 KiB as there are buffers. -/
theorem chunkSize_grows (a b : Nat) : 8192 * a ≤ chunkSize a b := by
  unfold chunkSize
  have h : ∀ n, n ≤ nextPowerOfTwo n := by
    intro n
    unfold nextPowerOfTwo
    split
    · assumption
    · have := Nat.lt_log2_self (n := n - 1)
      omega
  have := h (8 * 1024 * max a 1 + b)
  omega

/-- **C63**: after any calls, whatever they report, each block of memory the reader holds has at most as many bytes as the source, and the number `k`
of blocks is about the square root of them: for a source of `n` bytes that ends or fails `m` times, `4096 (k - m - 2) (k - m - 3) ≤ n`. -/
theorem C63_blocks (ops : List ROp) :
    (∀ a s, (heldAfter room chunkSize opts src ops).mem.block a = some s → s.length ≤ (bytesOf src).length) ∧
    ∀ l : List Nat, l.Nodup → (∀ a ∈ l, (heldAfter room chunkSize opts src ops).mem.block a ≠ none) →
      4096 * ((l.length - src.length - 2) * (l.length - src.length - 3)) ≤ (bytesOf src).length := by
  have h := Heap.after_fits (room := room) (opts := opts) chunkSize_grows src ops
  refine ⟨h.blocks, fun l hl ha => ?_⟩
  have h1 := h.sound.blocks_le hl ha
  have h2 := h.count
  have h3 : (heldAfter room chunkSize opts src ops).exhausted.toNat ≤ 1 := Bool.toNat_le _
  have h4 := Heap.cost_mono (a := l.length - src.length - 2) (b := (heldAfter room chunkSize opts src ops).tail.length -
    (src.length - (heldAfter room chunkSize opts src ops).source.length) - (heldAfter room chunkSize opts src ops).exhausted.toNat) (by omega)
  unfold Heap.cost at h4 h2
  rw [show l.length - src.length - 3 = l.length - src.length - 2 - 1 by omega]
  omega

/-- **C63**: so all the blocks together have at most `k n` bytes. -/
theorem C63_bytes (ops : List ROp) {l : List Nat} {f : Nat → Str}
    (hf : ∀ a ∈ l, (heldAfter room chunkSize opts src ops).mem.block a = some (f a)) :
    (l.map fun a => (f a).length).sum ≤ l.length * (bytesOf src).length := by
  have h := (C63_blocks (room := room) (opts := opts) (src := src) ops).1
  induction l with
  | nil => simp
  | cons a l ih =>
    have h1 := h a _ (hf a List.mem_cons_self)
    have h2 := ih fun b hb => hf b (List.mem_cons_of_mem _ hb)
    simp only [List.map_cons, List.sum_cons, List.length_cons, Nat.add_mul, Nat.one_mul]
    omega

/-- A source of 12 bytes that ends three times for a while: four blocks. -/
example : let src := [(bytes! "- a\n- 'b", none), (bytes! "c", none), (bytes! "d'\n", none)]
    let o := heldAfter (fun _ _ => true) chunkSize {} src (List.replicate 9 .pop)
    scalarsHanded (heldHistory (fun _ _ => true) chunkSize {} src (List.replicate 9 .pop)) = [bytes! "a", bytes! "bcd"] ∧
      o.tail = [none, some 0, some 1, some 2] ∧ o.head = some 3 ∧
      (List.range 5).map (fun a => (o.mem.block a).map List.length) = [some 8, some 3, some 6, some 1, none] := by
  decide +kernel

/-- Blocks overlap: were buffers of four bytes, a source of 19 bytes would make the reader hold 52. -/
example : let o := heldAfter (fun _ _ => true) (fun _ _ => 4) {} [(bytes! "- 'abcdefghijklmn'\n", none)] (List.replicate 9 .pop)
    (List.range 7).map (fun a => (o.mem.block a).map List.length) = [some 4, some 6, some 10, some 14, some 17, some 1, none] := by
  decide +kernel

end Yary
