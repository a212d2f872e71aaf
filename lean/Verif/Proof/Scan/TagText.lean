import Verif.Proof.Scan.Names

/-! # Tags: what they stand for, and which are accepted -/

namespace Yary

open Spec

variable {opts : SFlags} {verbatim : Bool}

theorem uriPlain_iff {b : Byte} : uriPlain verbatim b = true ↔ IsUriByte verbatim b := by
  unfold IsUriByte
  rw [← isAlnum_iff]
  constructor
  · intro h
    have hb := uriPlain_ascii h
    have : ∀ v : Bool, ∀ n < 128, uriPlain v n = true → isAlnum n = true ∨ n ∈ bytes! "!$&'()*+-./:;=?@_~" ∨
        (v = true ∧ n ∈ bytes! ",[]") := by decide +kernel
    exact this _ b hb h
  · intro h
    have hb : b < 128 := by
      rcases h with h | h | ⟨-, h⟩
      · exact isAlnum_ascii h
      · have : ∀ x ∈ bytes! "!$&'()*+-./:;=?@_~", x < 128 := by decide +kernel
        exact this b h
      · have : ∀ x ∈ bytes! ",[]", x < 128 := by decide +kernel
        exact this b h
    have : ∀ v : Bool, ∀ n < 128, (isAlnum n = true ∨ n ∈ bytes! "!$&'()*+-./:;=?@_~" ∨
        (v = true ∧ n ∈ bytes! ",[]")) → uriPlain v n = true := by decide +kernel
    exact this _ b hb h

theorem hexNumber_two {x y : Byte} {v : Nat} :
    hexNumber [x, y] = some v ↔ isHexDigit x = true ∧ isHexDigit y = true ∧ asHex x * 16 + asHex y = v := by
  simp only [hexNumber, hexFrom, hexDigit_eq, Nat.zero_mul, Nat.zero_add]
  cases isHexDigit x <;> cases isHexDigit y <;> simp

theorem Spec.PercentDecode.append {a b u v : Str} (h : PercentDecode verbatim a u) (h' : PercentDecode verbatim b v) :
    PercentDecode verbatim (a ++ b) (u ++ v) := by
  induction h with
  | nil => exact h'
  | byte hb _ ih => exact .byte hb ih
  | percent hx _ ih => exact .percent hx ih

theorem PctText.decode {w os : Str} (h : PctText w os) : PercentDecode verbatim w os := by
  induction h with
  | nil => exact .nil
  | cons ha hb _ ih => exact .percent (hexNumber_two.2 ⟨ha, hb, rfl⟩) ih

theorem UriText.decode {w u : Str} (h : UriText verbatim w u) : PercentDecode verbatim w u := by
  induction h with
  | nil => exact .nil
  | byte _ hb ih => exact ih.append (.byte (uriPlain_iff.1 hb) .nil)
  | percent _ hp _ _ ih => exact ih.append hp.decode

theorem Spec.PercentDecode.ascii {w u : Str} (h : PercentDecode verbatim w u) : Ascii w := by
  induction h with
  | nil => exact .nil
  | byte hb _ ih => exact .cons (uriPlain_ascii (uriPlain_iff.2 hb)) ih
  | percent hx _ ih =>
    obtain ⟨h1, h2, -⟩ := hexNumber_two.1 hx
    have key : ∀ x, isHexDigit x = true → x < 128 := by
      intro x h
      simp only [isHexDigit, Bool.or_eq_true, Bool.and_eq_true, decide_eq_true_eq] at h
      byte_omega
    exact .cons (by decide) (.cons (key _ h1) (.cons (key _ h2) ih))

theorem Spec.PercentDecode.split {w a u : Str} (h : PercentDecode verbatim w (a ++ u)) :
    ∃ w1 w2, w = w1 ++ w2 ∧ PercentDecode verbatim w1 a ∧ PercentDecode verbatim w2 u := by
  induction a generalizing w with
  | nil => exact ⟨[], w, rfl, .nil, h⟩
  | cons x a ih =>
    rw [List.cons_append] at h
    cases h with
    | byte hb h =>
      obtain ⟨w1, w2, rfl, h1, h2⟩ := ih h
      exact ⟨x :: w1, w2, rfl, .byte hb h1, h2⟩
    | percent hx h =>
      obtain ⟨w1, w2, rfl, h1, h2⟩ := ih h
      exact ⟨_ :: _ :: _ :: w1, w2, rfl, .percent hx h1, h2⟩

/-- What is not ASCII is percent-encoded. -/
theorem Spec.PercentDecode.pct {w u : Str} (h : PercentDecode verbatim w u) (hu : ∀ x ∈ u, 128 ≤ x) : PctText w u := by
  induction h with
  | nil => exact .nil
  | @byte b _ _ hb _ ih =>
    have := uriPlain_ascii (uriPlain_iff.2 hb)
    have := hu b (by simp)
    byte_omega
  | percent hx _ ih =>
    obtain ⟨h1, h2, rfl⟩ := hexNumber_two.1 hx
    exact .cons h1 h2 (ih fun x hx => hu x (by simp [hx]))

theorem percentOctet_eq (hx : opts.extendable = false) {a b : Byte} {t : Str} (ha : isHexDigit a = true) (hb : isHexDigit b = true) :
    percentOctet opts (b! '%' :: a :: b :: t) = .ok (asHex a * 16 + asHex b) := by
  unfold percentOctet
  simp [cache_whole opts hx, ha, hb]

theorem percentTrail_eq (hx : opts.extendable = false) {w os t : Str} (h : PctText w os) (ho : ∀ x ∈ os, 0x80 ≤ x ∧ x < 0xC0) :
    percentTrail opts os.length (w ++ t) = .ok os := by
  induction h with
  | nil => simp [percentTrail]
  | @cons a b w os ha hb h ih =>
    have h0 := ho (asHex a * 16 + asHex b) (by simp)
    rw [List.length_cons, percentTrail]
    simp only [List.cons_append, percentOctet_eq hx ha hb, Out.ok_bind]
    rw [if_pos (by simpa using h0)]
    simp [ih fun x hx => ho x (by simp [hx])]

theorem octetLen_char (c : Char) : ∃ o r, utf8Char c = o :: r ∧ octetLen o = r.length + 1 ∧
    (∀ x ∈ r, 0x80 ≤ x ∧ x < 0xC0) ∧ (o < 128 → r = []) ∧ (o < 0x80 ∨ 0xC0 ≤ o) := by
  have hr := charVal_range c
  rw [utf8Char_eq]
  generalize c.val.toNat = v at hr
  split
  · exact ⟨_, _, rfl, by simp [octetLen, show v < 128 by omega], by simp, by simp, by byte_omega⟩
  · split
    · refine ⟨_, _, rfl, ?_, ?_, by byte_omega, by byte_omega⟩
      · simp [octetLen, show ¬ 192 + v / 64 < 128 by omega, show 192 + v / 64 < 224 by omega]
      · intro x hx
        simp at hx
        byte_omega
    · split
      · refine ⟨_, _, rfl, ?_, ?_, by byte_omega, by byte_omega⟩
        · simp only [octetLen, Bool.and_eq_true, decide_eq_true_eq]
          rw [if_neg (by omega), if_neg (by omega), if_pos (by omega)]
          rfl
        · intro x hx
          simp at hx
          byte_omega
      · refine ⟨_, _, rfl, ?_, ?_, by byte_omega, by byte_omega⟩
        · simp only [octetLen, Bool.and_eq_true, decide_eq_true_eq]
          rw [if_neg (by omega), if_neg (by omega), if_neg (by omega), if_pos (by omega)]
          rfl
        · intro x hx
          simp at hx
          byte_omega

theorem tagUriUnescape_eq (hx : opts.extendable = false) {w t : Str} {c : Char} (h : PctText w (utf8Char c)) :
    tagUriUnescape opts (w ++ t) = .ok (utf8Char c) := by
  obtain ⟨o, r, e1, e2, e3, -⟩ := octetLen_char c
  rw [e1] at h ⊢
  unfold tagUriUnescape
  cases h with
  | cons ha hb h =>
    simp only [List.cons_append, percentOctet_eq hx ha hb, Out.ok_bind, List.drop_succ_cons, List.drop_zero]
    rw [if_neg (by omega), show octetLen _ - 1 = r.length by omega, percentTrail_eq hx h e3]
    rfl

/-- What the URI is so far. -/
structure UriVal (base : Str) (st : UriSt) (u : Str) : Prop where
  borrow : st.canBorrow = true → st.scratch = [] ∧ base = u ++ st.cur.buf
  copy : st.canBorrow = false → st.scratch = u

theorem scanUriLoop_ok (hx : opts.extendable = false) {base r : Str} (hr : HeadOk r) (hend : UriEnds verbatim r) {fuel : Nat} {st : UriSt} {l : List Char}
    {w u : Str} (hd : PercentDecode verbatim w (utf8 l)) (hb : st.cur.buf = w ++ r) (hv : UriVal base st u) (hf : w.length < fuel) :
    ∃ st', scanUriLoop opts verbatim base fuel st = .ok st' ∧ st'.cur.buf = r ∧ UriVal base st' (u ++ utf8 l) := by
  induction fuel generalizing st l w u with
  | zero => omega
  | succ fuel ih =>
    have ha : Ascii w := hd.ascii
    have hA : Around (w ++ r) r := ⟨⟨w, rfl, ha⟩, hr⟩
    rw [scanUriLoop]
    simp only [cache_whole opts hx, Out.ok_bind]
    cases l with
    | nil =>
      cases hd with
      | nil =>
        obtain ⟨b, t, rfl, h1, h2⟩ := hend
        simp only [List.nil_append] at hb
        rw [hb]
        simp only
        rw [if_neg, if_neg h2]
        · exact ⟨st, rfl, hb, by simpa [utf8] using hv⟩
        · rw [← uriPlain_iff] at h1
          simpa [uriPlain] using h1
    | cons c l =>
      have hu : utf8 (c :: l) = utf8Char c ++ utf8 l := by simp [utf8]
      rw [hu] at hd
      obtain ⟨w1, w2, rfl, h1, h2⟩ := hd.split
      obtain ⟨o, os, e1, e2, e3, e4, e5⟩ := octetLen_char c
      have adv : ∀ n, n ≤ (w1 ++ w2).length → st.cur.adv n = .ok ⟨st.cur.buf.drop n, st.cur.stats.update n 0 n⟩ := by
        intro n hn
        unfold Cur.adv
        rw [if_pos]
        rw [hb]
        exact hA.boundary (by simp at hn ⊢; omega)
      -- a percent-encoded character
      have pct : PctText w1 (utf8Char c) → ∃ st', (match st.cur.buf with
          | [] => Out.err ScanError.UnexpectedEOF
          | b :: _ =>
            if (uriByte b || verbatimByte b && verbatim) = true then do
              let st ← st.push b
              scanUriLoop opts verbatim base fuel st
            else if b = b! '%' then do
              let st ← UriSt.percent opts base st
              scanUriLoop opts verbatim base fuel st
            else Out.ok st) = .ok st' ∧ st'.cur.buf = r ∧ UriVal base st' (u ++ utf8 (c :: l)) := by
        intro hp
        have hlen := hp.length
        have hun := tagUriUnescape_eq hx (t := w2 ++ r) hp
        have hb' : st.cur.buf = w1 ++ (w2 ++ r) := by rw [hb, List.append_assoc]
        obtain ⟨a, b, t', rfl⟩ : ∃ a b t', w1 = b! '%' :: a :: b :: t' := by
          rw [e1] at hp
          cases hp with
          | cons => exact ⟨_, _, _, rfl⟩
        rw [hb']
        simp only [List.cons_append]
        rw [if_neg (by simp [uriByte, verbatimByte]), if_pos trivial]
        unfold UriSt.percent
        rw [hb', hun]
        simp only [Out.ok_bind]
        rw [adv _ (by rw [← hlen]; simp)]
        simp only [Out.ok_bind]
        rw [hu, ← List.append_assoc u]
        refine ih (w := w2) h2 ?_ ?_ (by simp at hf ⊢; omega)
        · simp only [hb', ← hlen, List.drop_left]
        · refine ⟨fun h => (by cases h), fun _ => ?_⟩
          simp only
          split
          · rename_i hcb
            obtain ⟨h3, h4⟩ := hv.borrow hcb
            rw [h3, h4, hb']
            simp
          · rename_i hcb
            rw [hv.copy (by simpa using hcb)]
      by_cases ho : o < 128
      · have := e4 ho
        subst this
        have h1' := h1
        rw [e1] at h1
        cases h1 with
        | byte hby h =>
          cases h
          have hb' : st.cur.buf = o :: (w2 ++ r) := by rw [hb]; rfl
          rw [hb']
          simp only
          have : (uriByte o || verbatimByte o && verbatim) = true := by
            have := uriPlain_iff.2 hby
            simpa [uriPlain] using this
          rw [if_pos this]
          unfold UriSt.push
          rw [adv 1 (by simp)]
          simp only [Out.ok_bind, hb', List.drop_succ_cons, List.drop_zero]
          rw [hu, ← List.append_assoc u]
          refine ih h2 rfl ⟨fun h => ?_, fun h => ?_⟩ (by simp at hf; omega)
          · have h : st.canBorrow = true := h
            obtain ⟨h3, h4⟩ := hv.borrow h
            simp [h, h3, h4, hb', e1]
          · have h : st.canBorrow = false := h
            simp [h, hv.copy h, e1]
        | percent hxy h =>
          obtain ⟨g1, g2, g3⟩ := hexNumber_two.1 hxy
          refine pct ?_
          rw [e1, ← g3]
          cases h
          exact .cons g1 g2 .nil
      · refine pct (h1.pct ?_)
        rw [e1]
        intro x hx
        rcases List.mem_cons.1 hx with rfl | hx
        · byte_omega
        · exact (e3 x hx).1

/-- Every URI text is read. -/
theorem scanTagUri_eq (hx : opts.extendable = false) {w r : Str} {l : List Char} {m : MStats} (hr : HeadOk r) (hend : UriEnds verbatim r)
    (hd : PercentDecode verbatim w (utf8 l)) : ∃ m', scanTagUri opts verbatim ⟨w ++ r, m⟩ = .ok (utf8 l, ⟨r, m'⟩) := by
  obtain ⟨st, h1, h2, h3⟩ := scanUriLoop_ok (base := w ++ r) (st := { cur := ⟨w ++ r, m⟩ }) (u := []) hx hr hend hd rfl
    ⟨fun _ => ⟨rfl, rfl⟩, fun h => (by cases h)⟩ (fuel := (w ++ r).length + 1) (by simp; omega)
  unfold scanTagUri
  rw [h1]
  simp only [Out.ok_bind, List.nil_append] at h3 ⊢
  have hc : st.cur = ⟨r, st.cur.stats⟩ := by rw [← h2]
  split
  · rename_i h
    have h4 := (h3.borrow h).2
    rw [h2] at h4
    have h5 := List.append_cancel_right h4
    have hA : Around (w ++ r) r := ⟨⟨w, rfl, hd.ascii⟩, hr⟩
    unfold slice
    rw [if_pos]
    · simp only [Out.ok_bind]
      rw [hc, ← h5]
      simp
    · have e1 := hA.boundary (n := 0) (by simp)
      have e2 := hA.boundary (n := (w ++ r).length - st.cur.buf.length) (by rw [h2]; simp)
      rw [e1, e2]
      simp
  · rename_i h
    rw [h3.copy (by simpa using h)]
    unfold fromUtf8Unwrap
    rw [if_pos ((validUtf8_iff _).2 ⟨l, rfl⟩)]
    simp only [Out.ok_bind]
    rw [hc]
    exact ⟨_, rfl⟩

end Yary
