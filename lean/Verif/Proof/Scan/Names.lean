import Verif.Proof.Scan.QuotedOk
import Verif.Proof.Scan.Token

/-! # Anchors and versions: exactly what is accepted -/

namespace Yary

open Spec

variable {opts : SFlags}

theorem isAlnum_iff {b : Byte} : isAlnum b = true ↔ IsAlnum b := by
  unfold IsAlnum
  constructor
  · intro h
    have hb : b < 128 := by
      simp only [isAlnum, isDigit, Bool.or_eq_true, Bool.and_eq_true, decide_eq_true_eq] at h
      byte_omega
    refine ⟨Char.ofNat b, ?_, ?_⟩
    · revert h
      have : ∀ n < 128, isAlnum n = true → (Char.ofNat n).isAlphanum = true := by decide +kernel
      exact this b hb
    · have : ∀ n < 128, (Char.ofNat n).toNat = n := by decide +kernel
      exact this b hb
  · rintro ⟨c, h1, rfl⟩
    have hc : c.toNat < 128 := by
      simp only [Char.isAlphanum, Char.isAlpha, Char.isUpper, Char.isLower, Char.isDigit, Bool.or_eq_true, Bool.and_eq_true,
        decide_eq_true_eq, UInt32.le_iff_toNat_le, ge_iff_le] at h1
      have : c.toNat = c.val.toNat := rfl
      simp at h1
      omega
    have : ∀ n < 128, (Char.ofNat n).isAlphanum = true → isAlnum n = true := by decide +kernel
    refine this _ hc ?_
    rw [Char.ofNat_toNat]; exact h1

theorem isDigit_iff {b : Byte} : isDigit b = true ↔ IsDigit b := by
  unfold IsDigit
  constructor
  · intro h
    have hb : b < 128 := by
      simp only [isDigit, Bool.and_eq_true, decide_eq_true_eq] at h
      byte_omega
    refine ⟨Char.ofNat b, ?_, ?_⟩
    · revert h
      have : ∀ n < 128, isDigit n = true → (Char.ofNat n).isDigit = true := by decide +kernel
      exact this b hb
    · have : ∀ n < 128, (Char.ofNat n).toNat = n := by decide +kernel
      exact this b hb
  · rintro ⟨c, h1, rfl⟩
    have hc : c.toNat < 128 := by
      simp only [Char.isDigit, Bool.and_eq_true, decide_eq_true_eq, UInt32.le_iff_toNat_le, ge_iff_le] at h1
      have : c.toNat = c.val.toNat := rfl
      simp at h1
      omega
    have : ∀ n < 128, (Char.ofNat n).isDigit = true → isDigit n = true := by decide +kernel
    refine this _ hc ?_
    rw [Char.ofNat_toNat]; exact h1

theorem anchorEnd_iff {b : Byte} : anchorEnd b = true ↔ b ∈ afterAnchor := by
  have : afterAnchor = [b! ' ', 0x0A, b! '?', b! ',', b! ']', b! '}', b! '%', b! '@', b! '`'] := by decide +kernel
  rw [this]
  simp [anchorEnd, or_assoc]

theorem takeWhileLen_eq (hx : opts.extendable = false) {f : Byte → Bool} {p r : Str} (hp : ∀ b ∈ p, f b = true)
    (hr : ∀ b t, r = b :: t → f b = false) : takeWhileLen opts f (p ++ r) = .ok p.length := by
  induction p with
  | nil =>
    cases r with
    | nil => simp [takeWhileLen, hx]
    | cons b t =>
      have := hr b t rfl
      simp [takeWhileLen, cache_whole opts hx, this]
  | cons b p ih =>
    have := hp b (by simp)
    rw [List.cons_append, takeWhileLen]
    simp [cache_whole opts hx, this, ih fun x hx => hp x (by simp [hx])]

theorem headOk_of_valid {r : Str} (h : validUtf8 r = true) : HeadOk r := by
  rintro b t rfl
  have := validUtf8_head h
  revert this
  simp

theorem adv_prefix {p r : Str} {m : MStats} (hp : Ascii p) (hr : HeadOk r) :
    (⟨p ++ r, m⟩ : Cur).adv p.length = .ok ⟨r, m.update p.length 0 p.length⟩ := by
  unfold Cur.adv
  rw [if_pos ((Around.mk ⟨p, rfl, hp⟩ hr).boundary (by simp))]
  simp

theorem isAlnum_ascii {b : Byte} (h : isAlnum b = true) : b < 128 := by
  simp only [isAlnum, isDigit, Bool.or_eq_true, Bool.and_eq_true, decide_eq_true_eq] at h
  byte_omega

/-- An anchor is scanned just as the name and what follows it say. -/
theorem scanAnchor_eq (hx : opts.extendable = false) {isAlias : Bool} {x : Byte} {name r : Str} {m : MStats} (hxa : x < 128)
    (hn : ∀ b ∈ name, isAlnum b = true) (hr : ∀ b t, r = b :: t → isAlnum b = false) (hh : HeadOk r) :
    scanAnchor opts isAlias ⟨x :: (name ++ r), m⟩ =
      if name = [] then .err .InvalidAnchorName
      else (checkAnchorEnd r).bind fun _ =>
        .ok (if isAlias then .Alias name else .Anchor name, ⟨r, (m.update 1 0 1).update name.length 0 name.length⟩) := by
  have hna : Ascii name := fun b hb => isAlnum_ascii (hn b hb)
  have hh' : HeadOk (name ++ r) := by
    cases name with
    | nil => exact hh
    | cons b t =>
      rintro b' t' h
      simp at h
      exact .inl (h.1 ▸ hna b (by simp))
  unfold scanAnchor
  have h1 := adv_prefix (m := m) (p := [x]) (r := name ++ r) (.cons hxa .nil) hh'
  rw [show (⟨x :: (name ++ r), m⟩ : Cur).adv 1 = _ from h1]
  simp only [Out.ok_bind]
  rw [takeWhileLen_eq hx hn hr]
  simp only [Out.ok_bind, List.take_left']
  rw [adv_prefix hna hh]
  simp only [Out.ok_bind, cache_whole opts hx, List.isEmpty_iff, List.length_cons, List.length_nil]
  rfl

/-! ### Versions -/

theorem decimal_ge (s : Str) (v : Nat) : v ≤ s.foldl (fun v b => 10 * v + (b - 0x30)) v := by
  induction s generalizing v with
  | nil => simp
  | cons b s ih =>
    refine Nat.le_trans ?_ (ih _)
    show v ≤ 10 * v + (b - 0x30)
    omega

theorem atoi_none (s : Str) : s.foldl (fun acc b => acc.bind fun v =>
      if v * 10 + (b - b! '0') < 256 then some (v * 10 + (b - b! '0')) else none) (none : Option Nat) = none := by
  induction s with
  | nil => rfl
  | cons b s ih => simpa using ih

theorem atoi_fold (s : Str) (v : Nat) (hv : v < 256) : s.foldl (fun acc b => acc.bind fun v =>
      if v * 10 + (b - b! '0') < 256 then some (v * 10 + (b - b! '0')) else none) (some v) =
    if s.foldl (fun v b => 10 * v + (b - 0x30)) v < 256 then some (s.foldl (fun v b => 10 * v + (b - 0x30)) v) else none := by
  induction s generalizing v with
  | nil => simp [hv]
  | cons b s ih =>
    simp only [List.foldl_cons, Option.bind_some]
    have e : v * 10 + (b - b! '0') = 10 * v + (b - 0x30) := by rw [Nat.mul_comm]
    rw [e]
    by_cases h : 10 * v + (b - 0x30) < 256
    · rw [if_pos h]
      exact ih _ h
    · have := decimal_ge s (10 * v + (b - 0x30))
      rw [if_neg h, atoi_none]
      exact (if_neg (Nat.not_lt.2 (Nat.le_trans (Nat.not_lt.1 h) this))).symm

theorem atoiU8_eq (s : Str) : atoiU8 s = if s ≠ [] ∧ decimal s < 256 then some (decimal s) else none := by
  unfold atoiU8
  cases s with
  | nil => simp
  | cons b t =>
    simp only
    rw [atoi_fold _ 0 (by omega)]
    simp [decimal]

theorem isDigit_ascii {b : Byte} (h : isDigit b = true) : b < 128 := isAlnum_ascii (by simp [isAlnum, h])

theorem scanVersionNumber_eq (hx : opts.extendable = false) {d r : Str} {m : MStats} (hd : ∀ b ∈ d, isDigit b = true)
    (hr : ∀ b t, r = b :: t → isDigit b = false) (hh : HeadOk r) :
    scanVersionNumber opts ⟨d ++ r, m⟩ =
      if d ≠ [] ∧ decimal d < 256 then .ok (decimal d, ⟨r, m.update d.length 0 d.length⟩) else .err .InvalidVersion := by
  unfold scanVersionNumber
  simp only
  rw [takeWhileLen_eq hx hd hr]
  simp only [Out.ok_bind, List.take_left']
  rw [atoiU8_eq]
  by_cases h : d ≠ [] ∧ decimal d < 256
  · rw [if_pos h, if_pos h]
    simp only
    rw [adv_prefix (fun b hb => isDigit_ascii (hd b hb)) hh]
    rfl
  · rw [if_neg h, if_neg h]

end Yary
