import Verif.Proof.Heap
import Verif.Proof.Chunk.Owned

/-! # How much memory a reader of a source holds -/

namespace Yary.Heap

open Spec

variable {room : Mem → Nat → Bool} {size : Nat → Nat → Nat} {opts : SFlags}

/-- The bytes that `k` chunks have at least. -/
def cost (k : Nat) : Nat := 4096 * (k * (k - 1))

theorem cost_succ (k : Nat) : cost (k + 1) = cost k + 8192 * k := by
  unfold cost
  cases k with
  | zero => rfl
  | succ k =>
    simp only [Nat.add_sub_cancel, Nat.mul_add, Nat.add_mul, Nat.mul_one, Nat.one_mul]
    omega

theorem cost_mono {a b : Nat} (h : a ≤ b) : cost a ≤ cost b :=
  Nat.mul_le_mul_left _ (Nat.mul_le_mul h (by omega))

/-- What is taken from a source. -/
theorem take_cases {cap : Nat} {src src' : Source} {r : Out ReaderError Str} (h : src.take cap = (r, src')) :
    (bytesOf src').length ≤ (bytesOf src).length ∧ src'.length ≤ src.length ∧
    ((∃ bytes, r = .ok bytes ∧ (bytesOf src).length = bytes.length + (bytesOf src').length ∧
      (bytes.length = cap ∨ bytes = [] ∨ src'.length + 1 = src.length)) ∨ ∃ e, r = .err e) := by
  cases src with
  | nil =>
    injection h with h1 h2; subst h1 h2
    exact ⟨Nat.le_refl _, Nat.le_refl _, .inl ⟨[], rfl, by simp, .inr (.inl rfl)⟩⟩
  | cons x src =>
    obtain ⟨b, e⟩ := x
    unfold Source.take at h
    simp only at h
    split at h
    · next hc =>
      injection h with h1 h2; subst h1 h2
      refine ⟨by simp [bytesOf], by simp, .inl ⟨_, rfl, ?_, .inl (by rw [List.length_take]; omega)⟩⟩
      simp only [bytesOf, List.flatMap_cons, List.length_append, List.length_take, List.length_drop]
      omega
    · cases e with
      | none =>
        injection h with h1 h2; subst h1 h2
        exact ⟨by simp [bytesOf], by simp, .inl ⟨_, rfl, by simp [bytesOf], .inr (.inr (by simp))⟩⟩
      | some e =>
        injection h with h1 h2; subst h1 h2
        exact ⟨by simp [bytesOf], by simp, .inr ⟨_, rfl⟩⟩

/-- The reader holds little: of `n` bytes from a source that ends or fails `m` times. -/
structure Fits (m n : Nat) (o : Holder) : Prop where
  sound : Sound o
  blocks : ∀ a s, o.mem.block a = some s → s.length ≤ n
  head : (o.mem.load o.head).1.length + (bytesOf o.source).length ≤ n
  ends : o.source.length ≤ m
  count : cost (o.tail.length - (m - o.source.length) - o.exhausted.toNat) + (bytesOf o.source).length ≤ n

theorem fits_give {m n : Nat} {o : Holder} (h : Fits m n o) (ts : List TokenEntry) : Fits m n (o.give ts) := by
  obtain ⟨s, hs⟩ := h.sound.head
  have e : (o.give ts).mem = o.mem := by unfold Holder.give; rw [hs.load]
  refine ⟨(give_sound h.sound ts).1, ?_, ?_, h.ends, h.count⟩
  · rw [e]; exact h.blocks
  · show ((o.give ts).mem.load o.head).1.length + (bytesOf o.source).length ≤ n
    rw [e]; exact h.head

theorem fits_refresh (hsize : ∀ a b, 8192 * a ≤ size a b) {m n : Nat} {o : Holder} (h : Fits m n o) (hx : o.exhausted = false) (mark : Nat) :
    Fits m n (o.refresh room size mark).2 := by
  have hsound := (refresh_sound (room := room) (size := size) h.sound mark).1
  obtain ⟨s, hs⟩ := h.sound.head
  have hnew : NewBuf o.mem o.mem none [] := ⟨h.sound.fault, h.sound.fresh, Nat.le_refl _, rfl, fun _ _ => rfl, fun _ h => by cases h⟩
  have hh := h.head
  have hc := h.count
  rw [hs.load] at hh
  rw [hx] at hc
  simp only [Bool.toNat_false, Nat.sub_zero] at hc hh
  unfold Holder.refresh at hsound ⊢
  simp only [hs.load] at hsound ⊢
  split
  · exact h
  next hm =>
  rw [if_neg hm] at hsound
  generalize hcap : size o.tail.length mark = cap at hsound ⊢
  have hcap' : 8192 * o.tail.length ≤ cap := by rw [← hcap]; exact hsize _ _
  have h2 := (hnew.extend (room := room) h.sound.fresh (s.drop mark)).extend (room := room) h.sound.fresh (o.source.given cap)
  simp only [List.nil_append] at h2
  generalize Mem.extend room (Mem.extend room o.mem none (s.drop mark)).2 (Mem.extend room o.mem none (s.drop mark)).1 (o.source.given cap) = r at h2 hsound ⊢
  obtain ⟨new, mm⟩ := r
  simp only at h2 hsound ⊢
  have hgiven := @given_take cap o.source
  have htc := @take_cases cap o.source
  cases ht : o.source.take cap with
  | mk x src =>
  rw [ht] at hsound
  obtain ⟨t1, t2, t3⟩ := htc ht
  have hkeep : ∀ x, Sound { o with mem := mm.free new, source := src, exhausted := x } → Fits m n { o with mem := mm.free new, source := src, exhausted := x } := by
    intro x hsx
    have hfr := (h2.free h.sound.fresh).2.1
    refine ⟨hsx, ?_, ?_, Nat.le_trans t2 h.ends, ?_⟩
    · intro a s h3
      simp only at h3
      rw [hfr a] at h3
      exact h.blocks a s h3
    · simp only
      rw [load_congr hfr, hs.load]
      simp only; omega
    · simp only
      refine Nat.le_trans (Nat.add_le_add (cost_mono (b := o.tail.length - (m - o.source.length)) ?_) t1) hc
      have := h.ends
      omega
  rcases t3 with ⟨bytes, rfl, t3, t4⟩ | ⟨e, rfl⟩
  · simp only at hsound ⊢
    have hg := hgiven ht
    rw [hg] at h2
    simp only [h2.holds.load] at hsound ⊢
    split
    · next hv =>
      rw [if_pos hv] at hsound
      have hlen : (s.drop mark ++ bytes).length + (bytesOf src).length ≤ n := by
        rw [List.length_append, List.length_drop]; omega
      refine ⟨hsound, ?_, ?_, Nat.le_trans t2 h.ends, ?_⟩
      · intro a z h3
        simp only at h3
        by_cases ha : some a = new
        · subst ha
          have := h2.holds
          simp only [Stored] at this
          rw [this] at h3
          injection h3 with h3
          subst h3; omega
        · rw [h2.others a ha] at h3
          exact h.blocks a z h3
      · simp only [h2.holds.load]
        exact hlen
      · simp only [List.length_append, List.length_singleton]
        have hends := h.ends
        have hlast : ∀ k, k ≤ o.tail.length - (m - o.source.length) → cost k + (bytesOf src).length ≤ n := fun k hk => by
          have := cost_mono hk
          omega
        rcases t4 with t4 | t4 | t4
        · cases he : bytes.isEmpty with
          | true => exact hlast _ (by simp only [Bool.toNat_true]; omega)
          | false =>
            have h5 := cost_mono (a := o.tail.length + 1 - (m - src.length)) (b := o.tail.length - (m - o.source.length) + 1) (by omega)
            have h6 := cost_succ (o.tail.length - (m - o.source.length))
            simp only [Bool.toNat_false, Nat.sub_zero]
            omega
        · subst t4
          exact hlast _ (by simp only [List.isEmpty_nil, Bool.toNat_true]; omega)
        · exact hlast _ (by omega)
    · next hv =>
      rw [if_neg hv] at hsound
      exact hkeep _ hsound
  · exact hkeep _ hsound

theorem fits_loop (hsize : ∀ a b, 8192 * a ≤ size a b) {m n : Nat} : ∀ fuel (o : Holder) (sc : Scanner) (out : List TokenEntry), Fits m n o →
    Fits m n (heldLoop room size opts fuel o sc out).2.2.1
  | 0, o, sc, out, h => h
  | fuel + 1, o, sc, out, h => by
    rw [heldLoop]
    have hcalm : o.exhausted = true → (scanTokens { opts with extendable := !o.exhausted } (o.mem.load o.head).1 sc).1 ≠ .err .Extend := by
      intro hx
      exact Chunk.scanLoop_calm (by simp [hx]) _ _ _
    generalize scanTokens { opts with extendable := !o.exhausted } (o.mem.load o.head).1 sc = r at hcalm
    obtain ⟨x, sc1, more⟩ := r
    have hend := fits_give h more
    cases x with
    | ok u => exact hend
    | panic => exact hend
    | diverge => exact hend
    | err e =>
      cases e
      case Extend =>
        have hx : o.exhausted = false := by
          cases hx : o.exhausted with
          | false => rfl
          | true => exact absurd rfl (hcalm hx)
        have h1 := fits_refresh (room := room) hsize hend hx sc1.offset
        simp only
        generalize (o.give more).refresh room size sc1.offset = r at h1 ⊢
        obtain ⟨x, o2⟩ := r
        cases x with
        | ok u => exact fits_loop hsize fuel o2 _ _ h1
        | err e => exact h1
        | panic => exact h1
        | diverge => exact h1
      all_goals exact hend

theorem fits_start (src : Source) : Fits src.length (bytesOf src).length { source := src } :=
  ⟨.start src, fun a s h => (by cases h), by simp [Mem.load], Nat.le_refl _, by simp [cost]⟩

theorem after_fits (hsize : ∀ a b, 8192 * a ≤ size a b) (src : Source) (ops : List ROp) :
    Fits src.length (bytesOf src).length (heldAfter room size opts src ops) :=
  (reader_kept (drive := heldDrive room size opts) (J := fun s _ => Fits src.length (bytesOf src).length s.1) (K := fun _ => True)
    (src := ({ source := src }, {})) (fun s D o b s' hJ hd _ => by
      have := fits_loop (room := room) (opts := opts) hsize (s.1.source.reads + 3) s.1 s.2 [] hJ
      unfold heldDrive at hd
      rw [hd] at this
      exact this) (fits_start src) ops (fun _ _ => trivial)).2

theorem length_le_of_nodup : ∀ (l k : List Nat), l.Nodup → (∀ a ∈ l, a ∈ k) → l.length ≤ k.length
  | [], _, _, _ => Nat.zero_le _
  | a :: l, k, hl, hk => by
    rw [List.nodup_cons] at hl
    have ha := hk a List.mem_cons_self
    have h := length_le_of_nodup l (k.erase a) hl.2 fun b hb =>
      (List.mem_erase_of_ne (show b ≠ a from fun e => hl.1 (e ▸ hb))).2 (hk b (List.mem_cons_of_mem _ hb))
    rw [List.length_erase_of_mem ha] at h
    have := List.length_pos_of_mem ha
    simp only [List.length_cons]
    omega

/-- The blocks in memory are as many as the reader has buffers, at most. -/
theorem Sound.blocks_le {o : Holder} (h : Sound o) {l : List Nat} (hl : l.Nodup) (ha : ∀ a ∈ l, o.mem.block a ≠ none) : l.length ≤ o.tail.length + 1 := by
  have hsub : ∀ a ∈ l, a ∈ (o.head :: o.tail).filterMap id := by
    intro a h1
    exact List.mem_filterMap.2 ⟨some a, (h.owned a).1 (ha a h1), rfl⟩
  have h1 := length_le_of_nodup _ _ hl hsub
  have h2 := List.length_filterMap_le id (o.head :: o.tail)
  simp only [List.length_cons] at h2
  omega

end Yary.Heap
