import Verif.Proof.Scan.Base

/-! # Anchors, tags and directives: termination, panics, and what is read -/

namespace Yary

open Out (Sat)

variable {P : Prop}

theorem takeWhileLen_sat {opts : SFlags} {f : Byte → Bool} (s : Str) :
    Sat P (takeWhileLen opts f s) (fun n => n ≤ s.length ∧ (∀ b ∈ s.take n, f b = true) ∧
      ∀ b, s[n]? = some b → f b = false) := by
  induction s with
  | nil => unfold takeWhileLen; split <;> simp
  | cons b t ih =>
    rw [takeWhileLen]
    refine cache_bind ?_
    split
    · rename_i hb
      refine ih.bind ?_
      rintro n ⟨h1, h2, h3⟩
      simp only [Out.Sat.ok]
      refine ⟨by simpa using h1, ?_, ?_⟩
      · intro x hx
        simp only [List.take_succ_cons, List.mem_cons] at hx
        rcases hx with rfl | hx
        · exact hb
        · exact h2 x hx
      · simpa using h3
    · rename_i hb
      simpa using hb

theorem isAlnum_noBrk {b : Byte} (h : isAlnum b = true) : NoBrk b := by
  simp only [isAlnum, isDigit, Bool.or_eq_true, Bool.and_eq_true, decide_eq_true_eq] at h
  refine ⟨?_, ?_, ?_, ?_⟩ <;> (rintro rfl; revert h; decide)

theorem isDigit_noBrk {b : Byte} (h : isDigit b = true) : NoBrk b :=
  isAlnum_noBrk (by simp [isAlnum, h])

theorem isHexDigit_noBrk {b : Byte} (h : isHexDigit b = true) : NoBrk b := by
  simp only [isHexDigit, Bool.or_eq_true, Bool.and_eq_true, decide_eq_true_eq] at h
  refine ⟨?_, ?_, ?_, ?_⟩ <;> (rintro rfl; revert h; decide)

/-- Moving over bytes that begin no line break. -/
theorem adv_run {c : Cur} {n : Nat} (hP : P ∨ Ascii c.buf) (hn : n ≤ c.buf.length)
    (hb : ∀ b ∈ c.buf.take n, NoBrk b) :
    Sat P (c.adv n) (fun c' => Reads c c' ∧ c'.buf = c.buf.drop n ∧
      c'.stats = c.stats.update n 0 n) := by
  refine (adv_sat hP hn).mono ?_
  rintro c' rfl
  exact ⟨.drop hn hb, rfl, rfl⟩

theorem anchorEnd_not_alnum {b : Byte} (h : anchorEnd b = true) : isAlnum b = false := by
  simp only [anchorEnd, Bool.or_eq_true, decide_eq_true_eq] at h
  rcases h with (((((((h | h) | h) | h) | h) | h) | h) | h) | h <;> subst h <;> decide

/-- An anchor or alias: the name is the longest run of alphanumeric bytes, it is not empty, and a
permitted byte follows. -/
theorem scanAnchor_sat {opts : SFlags} {isAlias : Bool} {b : Byte} {t : Str} {m : MStats}
    (hP : P ∨ Ascii (b :: t)) (hb : NoBrk b) :
    Sat P (scanAnchor opts isAlias ⟨b :: t, m⟩) (fun r => Reads ⟨b :: t, m⟩ r.2 ∧
      ∃ name, name ≠ [] ∧ (∀ x ∈ name, isAlnum x = true) ∧ t = name ++ r.2.buf ∧
        (∃ e u, r.2.buf = e :: u ∧ anchorEnd e = true) ∧
        r.1 = if isAlias then .Alias name else .Anchor name) := by
  unfold scanAnchor
  refine (adv_one hP (by simp) hb.isBreak).bind ?_
  rintro c1 ⟨hr, hbuf, -, -⟩
  simp only [List.drop_succ_cons, List.drop_zero] at hbuf
  refine (takeWhileLen_sat c1.buf).bind ?_
  rintro n ⟨hn, hall, -⟩
  refine (adv_run (hr.ascii hP) hn (fun x hx => isAlnum_noBrk (hall x hx))).bind ?_
  rintro c2 ⟨hr2, hbuf2, -⟩
  split
  · simp
  · rename_i hne
    refine cache_bind ?_
    cases hc : c2.buf with
    | nil => simp [checkAnchorEnd]
    | cons e u =>
      simp only [checkAnchorEnd]
      split
      · rename_i he
        simp only [Out.ok_bind, Out.Sat.ok]
        refine ⟨hr.trans hr2, c1.buf.take n, by simpa using hne, hall, ?_, ⟨e, u, hc, he⟩, rfl⟩
        rw [← hbuf, hbuf2, List.take_append_drop]
      · simp

theorem percentOctet_sat {opts : SFlags} (s : Str) :
    Sat P (percentOctet opts s) (fun o => ∃ a b t, s = b! '%' :: a :: b :: t ∧
      isHexDigit a = true ∧ isHexDigit b = true ∧ o = asHex a * 16 + asHex b) := by
  unfold percentOctet
  refine cache_bind ?_
  split
  · rename_i p a b t
    split
    · rename_i h
      simp only [Bool.and_eq_true, decide_eq_true_eq] at h
      obtain ⟨⟨rfl, ha⟩, hb⟩ := h
      exact ⟨a, b, t, rfl, ha, hb, rfl⟩
    · simp
  · simp

/-- The octets and the text that encodes them. -/
inductive PctText : Str → Str → Prop where
  | nil : PctText [] []
  | cons {a b : Byte} {w os : Str} : isHexDigit a = true → isHexDigit b = true → PctText w os →
      PctText (b! '%' :: a :: b :: w) ((asHex a * 16 + asHex b) :: os)

theorem PctText.length {w os : Str} (h : PctText w os) : w.length = 3 * os.length := by
  induction h with
  | nil => rfl
  | cons _ _ _ ih => simp [ih]; omega

theorem PctText.noBrk {w os : Str} (h : PctText w os) : ∀ b ∈ w, NoBrk b := by
  induction h with
  | nil => simp
  | cons ha hb _ ih =>
    intro x hx
    simp only [List.mem_cons] at hx
    rcases hx with rfl | rfl | rfl | hx
    · decide
    · exact isHexDigit_noBrk ha
    · exact isHexDigit_noBrk hb
    · exact ih x hx

theorem percentTrail_sat {opts : SFlags} (n : Nat) (s : Str) :
    Sat P (percentTrail opts n s) (fun os => os.length = n ∧
      (∀ o ∈ os, 0x80 ≤ o ∧ o < 0xC0) ∧ ∃ w t, s = w ++ t ∧ PctText w os) := by
  induction n generalizing s with
  | zero => exact ⟨rfl, by simp, [], s, rfl, .nil⟩
  | succ n ih =>
    rw [percentTrail]
    refine (percentOctet_sat s).bind ?_
    rintro o ⟨a, b, t, rfl, ha, hb, rfl⟩
    split
    · rename_i ho
      simp only [Bool.and_eq_true, decide_eq_true_eq] at ho
      refine (ih _).bind ?_
      rintro os ⟨h1, h2, w, u, hw, hp⟩
      simp only [List.drop_succ_cons, List.drop_zero] at hw
      refine ⟨by simp [h1], ?_, _, u, by rw [hw]; rfl, hp.cons ha hb⟩
      intro x hx
      rcases List.mem_cons.1 hx with rfl | hx
      · exact ho
      · exact h2 x hx
    · simp

theorem tagUriUnescape_sat {opts : SFlags} (s : Str) :
    Sat P (tagUriUnescape opts s) (fun os => ∃ o r w t, os = o :: r ∧ octetLen o = r.length + 1 ∧
      (∀ x ∈ r, 0x80 ≤ x ∧ x < 0xC0) ∧ s = w ++ t ∧ PctText w os) := by
  unfold tagUriUnescape
  refine (percentOctet_sat s).bind ?_
  rintro o ⟨a, b, t, rfl, ha, hb, rfl⟩
  split
  · simp
  · rename_i h0
    refine (percentTrail_sat _ _).bind ?_
    rintro os ⟨h1, h2, w, u, hw, hp⟩
    simp only [List.drop_succ_cons, List.drop_zero] at hw
    exact ⟨_, os, _, u, rfl, by omega, h2, by rw [hw]; rfl, hp.cons ha hb⟩

/-- The bytes taken as they are. -/
def uriPlain (verbatim : Bool) (b : Byte) : Bool := uriByte b || (verbatimByte b && verbatim)

theorem uriPlain_noBrk {v : Bool} {b : Byte} (h : uriPlain v b = true) : NoBrk b := by
  refine ⟨?_, ?_, ?_, ?_⟩ <;> (rintro rfl; revert h; cases v <;> decide)

theorem uriPlain_ascii {v : Bool} {b : Byte} (h : uriPlain v b = true) : b < 128 := by
  have h : uriPlain true b = true := by
    cases v
    · simp [uriPlain] at h ⊢; exact .inl h
    · exact h
  simp only [uriPlain, uriByte, verbatimByte, Bool.or_eq_true, Bool.and_eq_true,
    decide_eq_true_eq] at h
  byte_omega

/-- A URI text and what it denotes: unreserved bytes stand for themselves, and a `%XX` sequence
for the octets of one code point. -/
inductive UriText (verbatim : Bool) : Str → Str → Prop where
  | nil : UriText verbatim [] []
  | byte {b : Byte} {w u : Str} : UriText verbatim w u → uriPlain verbatim b = true →
      UriText verbatim (w ++ [b]) (u ++ [b])
  | percent {w u e r : Str} {o : Byte} : UriText verbatim w u → PctText e (o :: r) →
      octetLen o = r.length + 1 → (∀ x ∈ r, 0x80 ≤ x ∧ x < 0xC0) →
      UriText verbatim (w ++ e) (u ++ o :: r)

theorem asHex_lt {b : Byte} (h : isHexDigit b = true) : asHex b < 16 := by
  simp only [isHexDigit, Bool.or_eq_true, Bool.and_eq_true, decide_eq_true_eq] at h
  unfold asHex
  simp only [Bool.and_eq_true, decide_eq_true_eq]
  split
  · byte_omega
  · split <;> byte_omega

theorem UriText.ascii {v : Bool} {w u t : Str} (h : UriText v w u) (hp : NoPct (w ++ t)) :
    Ascii u := by
  induction h generalizing t with
  | nil => exact .nil
  | byte _ hb ih =>
    refine (ih (t := _ :: t) (by simpa using hp)).append ?_
    exact .cons (uriPlain_ascii hb) .nil
  | @percent w u e r o _ he hl _ ih =>
    refine (ih (t := e ++ t) (by simpa using hp)).append ?_
    cases he with
    | @cons a b w' os ha hb he =>
      have h128 : asHex a * 16 + asHex b < 128 := by
        refine hp w a b (w' ++ t) _ (by simp) ?_
        simp [Spec.hexNumber, Spec.hexFrom, hexDigit_eq, ha, hb]
      have : r = [] := by
        simp only [octetLen, h128, ↓reduceIte] at hl
        exact List.length_eq_zero_iff.1 (by omega)
      subst this
      exact .cons h128 .nil

/-- The state of the URI loop: what was read, and what it stands for. -/
structure UriInv (verbatim : Bool) (c : Cur) (st : UriSt) (w u : Str) : Prop where
  text : c.buf = w ++ st.cur.buf
  uri : UriText verbatim w u
  reads : Reads c st.cur
  borrow : st.canBorrow = true → u = w ∧ st.scratch = []
  copy : st.canBorrow = false → st.scratch = u

theorem scanUriLoop_sat {opts : SFlags} {verbatim : Bool} {c : Cur} {fuel : Nat} {st : UriSt}
    {w u : Str} (hP : P ∨ Ascii c.buf) (hf : st.cur.buf.length < fuel)
    (hi : UriInv verbatim c st w u) :
    Sat P (scanUriLoop opts verbatim c.buf fuel st) (fun st' => ∃ w u, UriInv verbatim c st' w u ∧
      (∃ b t, st'.cur.buf = b :: t ∧ uriPlain verbatim b = false ∧ b ≠ b! '%')) := by
  induction fuel generalizing st w u with
  | zero => omega
  | succ fuel ih =>
    rw [scanUriLoop]
    refine cache_bind ?_
    cases hbuf : st.cur.buf with
    | nil => simp
    | cons b t =>
      simp only
      have hA := hi.reads.ascii hP
      split
      · rename_i hb
        unfold UriSt.push
        refine Out.Sat.bind (Q := fun st' : UriSt =>
          UriInv verbatim c st' (w ++ [b]) (u ++ [b]) ∧ st'.cur.buf = t ∧
            st'.canBorrow = st.canBorrow) ?_ ?_
        · refine (adv_one hA (by simp [hbuf])
            (by rw [hbuf]; exact (uriPlain_noBrk hb).isBreak)).bind ?_
          rintro c' ⟨hr, hb', -, -⟩
          rw [hbuf] at hb'
          simp only [List.drop_succ_cons, List.drop_zero] at hb'
          refine ⟨⟨?_, hi.uri.byte hb, hi.reads.trans hr, ?_, ?_⟩, hb', rfl⟩
          · simp [hi.text, hbuf, hb']
          · intro h
            have h : st.canBorrow = true := h
            simp [hi.borrow h, h]
          · intro h
            have h : st.canBorrow = false := h
            simp [hi.copy h, h]
        · rintro st' ⟨hi', hb', -⟩
          exact ih (by rw [hb']; simp [hbuf] at hf; omega) hi'
      · rename_i hb
        split
        · rename_i hpct
          subst hpct
          unfold UriSt.percent
          refine Out.Sat.bind (Q := fun st' : UriSt =>
            ∃ w u, UriInv verbatim c st' w u ∧ st'.cur.buf.length < st.cur.buf.length) ?_ ?_
          · refine (tagUriUnescape_sat _).bind ?_
            rintro os ⟨o, r, e, t', rfl, hl, htr, hs, hp⟩
            have hlen := hp.length
            refine (adv_run (n := 3 * (o :: r).length) hA ?_ ?_).bind ?_
            · rw [hs, ← hlen]; simp
            · rw [hs, ← hlen]; simpa using hp.noBrk
            rintro c' ⟨hr, hb', -⟩
            rw [hs, ← hlen] at hb'
            simp only [List.drop_append_of_le_length (Nat.le_refl _), List.drop_length,
              List.nil_append] at hb'
            refine ⟨w ++ e, u ++ o :: r, ⟨?_, hi.uri.percent hp hl htr, hi.reads.trans hr, ?_, ?_⟩,
              ?_⟩
            · simp [hi.text, hs, hb']
            · intro h; cases h
            · intro _
              simp only
              split
              · rename_i h
                obtain ⟨rfl, hsc⟩ := hi.borrow h
                rw [hsc, hi.text]
                simp
              · rename_i h
                rw [hi.copy (by simpa using h)]
            · rw [hb', hs]; simp at hlen ⊢; omega
          · rintro st' ⟨w', u', hi', hl'⟩
            exact ih (by omega) hi'
        · rename_i hpct
          exact ⟨w, u, hi, ⟨b, t, hbuf, by simpa [uriPlain] using hb, hpct⟩⟩

/-- A tag URI: what is read is a URI text, up to the first byte that cannot belong to it, and the
result is what it denotes. -/
theorem scanTagUri_sat {opts : SFlags} {verbatim : Bool} {c : Cur} (hP : P ∨ Ascii c.buf)
    (hpct : P ∨ NoPct c.buf) :
    Sat P (scanTagUri opts verbatim c) (fun r => Reads c r.2 ∧
      ∃ w, c.buf = w ++ r.2.buf ∧ UriText verbatim w r.1 ∧
      ∃ b t, r.2.buf = b :: t ∧ uriPlain verbatim b = false ∧ b ≠ b! '%') := by
  unfold scanTagUri
  refine (scanUriLoop_sat (w := []) (u := []) hP (by simp)
    ⟨rfl, .nil, .refl c, fun _ => ⟨rfl, rfl⟩, fun h => by cases h⟩).bind ?_
  rintro st ⟨w, u, hi, hend⟩
  split
  · rename_i h
    obtain ⟨rfl, -⟩ := hi.borrow h
    have hlen : c.buf.length - st.cur.buf.length = u.length := by rw [hi.text]; simp
    unfold slice
    split
    · refine ⟨hi.reads, u, hi.text, ?_, hend⟩
      simpa [hlen, hi.text] using hi.uri
    · rename_i hs
      rcases hP with hP | hP
      · exact hP
      · exact absurd (by simp [hP.boundary (n := 0) (by simp),
          hP.boundary (n := c.buf.length - st.cur.buf.length) (by omega)]) hs
  · rename_i h
    have h : st.canBorrow = false := by simpa using h
    unfold fromUtf8Unwrap
    split
    · refine ⟨hi.reads, w, hi.text, ?_, hend⟩
      simpa [hi.copy h] using hi.uri
    · simp only [Out.panic_bind, Out.Sat.panic]
      rename_i hv
      rcases hpct with hp | hp
      · exact hp
      · refine absurd (Ascii.validUtf8 ?_) hv
        rw [hi.copy h]
        exact hi.uri.ascii (t := st.cur.buf) (by rw [← hi.text]; exact hp)

/-- A tag handle: `!`, `!!` or `!name!`, or none. -/
theorem scanTagHandle_sat {opts : SFlags} {c : Cur} :
    Sat P (scanTagHandle opts c) (fun r => match r with
      | (some (h, n), m) => Reads c ⟨c.buf.drop n, m⟩ ∧ n ≤ c.buf.length ∧ 0 < n ∧
          h.inner = c.buf.take n ∧
          (match h with
            | .Primary _ => c.buf.take n = [b! '!'] ∧ isWhiteSpace (c.buf.drop n) = true
            | .Secondary _ => c.buf.take n = [b! '!', b! '!']
            | .Named _ => ∃ name, name ≠ [] ∧ (∀ b ∈ name, isAlnum b = true) ∧
                c.buf.take n = b! '!' :: name ++ [b! '!'])
      | (none, m) => m = c.stats ∧ startsWith c.buf b! '!' = true) := by
  unfold scanTagHandle
  refine cache_bind ?_
  obtain ⟨buf, m⟩ := c
  cases buf with
  | nil => simp
  | cons b t =>
    simp only
    split
    · simp
    · rename_i hb
      simp only [ne_eq, Decidable.not_not] at hb
      subst hb
      refine (takeWhileLen_sat t).bind ?_
      rintro n ⟨hn, hall, -⟩
      refine cache_bind ?_
      have hdrop : (b! '!' :: t).drop (1 + n) = t.drop n := by rw [Nat.add_comm]; rfl
      have htake : ∀ k, (b! '!' :: t).take (1 + k) = b! '!' :: t.take k := by
        intro k; rw [Nat.add_comm]; rfl
      rw [hdrop]
      cases hd : t.drop n with
      | nil => simp
      | cons d r =>
        simp only
        have hlt : n < t.length := by
          rcases Nat.lt_or_ge n t.length with h | h
          · exact h
          · rw [List.drop_of_length_le h] at hd; cases hd
        have ht : t = t.take n ++ d :: r := by rw [← hd, List.take_append_drop]
        split
        · rename_i hd'
          subst hd'
          have htn : t.take (n + 1) = t.take n ++ [b! '!'] := by
            rw [List.take_succ, List.getElem?_eq_getElem hlt]
            have := List.getElem_cons_drop hlt
            rw [hd] at this
            injection this with h1 _
            simp [h1]
          have hR : Reads ⟨b! '!' :: t, m⟩ ⟨(b! '!' :: t).drop (1 + n + 1), m.update (1 + n + 1) 0 (1 + n + 1)⟩ := by
            refine Reads.drop (c := ⟨b! '!' :: t, m⟩) (by simp; omega) ?_
            intro x hx
            rw [Nat.add_assoc, htake, htn] at hx
            simp only [List.mem_cons, List.mem_append, List.not_mem_nil, or_false] at hx
            rcases hx with rfl | hx | rfl
            · decide
            · exact isAlnum_noBrk (hall x hx)
            · decide
          split
          · rename_i h0
            subst h0
            refine ⟨hR, by simp; omega, by omega, rfl, ?_⟩
            simp [htake, htn]
          · rename_i h0
            refine ⟨hR, by simp; omega, by omega, rfl, t.take n, ?_, hall, ?_⟩
            · intro h
              have := congrArg List.length h
              simp at this
              rcases this with h | h
              · exact h0 h
              · subst h; simp at hlt
            · rw [Nat.add_assoc, htake, htn]; rfl
        · split
          · rename_i h
            simp only [Bool.and_eq_true, decide_eq_true_eq] at h
            obtain ⟨rfl, hw⟩ := h
            exact ⟨.one rfl, by simp, by omega, rfl, rfl, by simpa [← hd] using hw⟩
          · simp [startsWith]

theorem requireBlank_sat (s : Str) : Sat P (requireBlank s) (fun _ => isBlank s = true) := by
  unfold requireBlank; split
  · simp
  · split <;> simp_all

theorem requireWhiteSpace_sat (s : Str) :
    Sat P (requireWhiteSpace s) (fun _ => isWhiteSpace s = true) := by
  unfold requireWhiteSpace; split
  · simp
  · split <;> simp_all

theorem requireClose_sat (s : Str) : Sat P (requireClose s) (fun _ => startsWith s b! '>' = true) := by
  unfold requireClose; split
  · simp
  · split <;> simp_all [startsWith]

theorem requireDot_sat (s : Str) : Sat P (requireDot s) (fun _ => startsWith s b! '.' = true) := by
  unfold requireDot; split
  · simp
  · split <;> simp_all [startsWith]

theorem not_mem_suffix {b : Byte} {a c : Cur} (h : Reads a c) (hp : P ∨ b ∉ a.buf) :
    P ∨ b ∉ c.buf := by
  obtain ⟨t, ht⟩ := h.suffix
  rcases hp with hp | hp
  · exact .inl hp
  · rw [ht] at hp; simp at hp; exact .inr hp.2

/-- A directive token. -/
def IsDirective (t : Token) : Prop :=
  (∃ a b, t = .VersionDirective a b) ∨ ∃ h p, t = .TagDirective h p

theorem scanTagDirective_sat {opts : SFlags} {c : Cur} (hP : P ∨ Ascii c.buf)
    (hpct : P ∨ NoPct c.buf) :
    Sat P (scanTagDirective opts c) (fun r => Reads c r.2 ∧ IsDirective r.1) := by
  unfold scanTagDirective
  refine (scanTagHandle_sat (c := c)).bind ?_
  rintro ⟨r, m⟩ h
  cases r with
  | none => simp
  | some hn =>
    obtain ⟨h', n⟩ := hn
    simp only at h
    obtain ⟨hR, hn, -⟩ := h
    refine Out.Sat.bind (skip_sat (c := ⟨c.buf, m⟩) hP hn) ?_
    rintro c1 rfl
    refine cache_bind ?_
    refine (requireBlank_sat _).bind fun _ _ => ?_
    refine (eatWs_sat (hR.ascii hP)).bind fun c2 hR2 => ?_
    have hR2 := hR.trans hR2
    refine (scanTagUri_sat (hR2.ascii hP) (hR2.noPct hpct)).bind ?_
    rintro ⟨u, c3⟩ ⟨hR3, -⟩
    refine (requireWhiteSpace_sat _).bind fun _ _ => ?_
    exact ⟨hR2.trans hR3, .inr ⟨_, _, rfl⟩⟩

theorem scanVersionNumber_sat {opts : SFlags} {c : Cur} (hP : P ∨ Ascii c.buf) :
    Sat P (scanVersionNumber opts c) (fun r => Reads c r.2 ∧ ∃ ds, ds ≠ [] ∧
      (∀ b ∈ ds, isDigit b = true) ∧ c.buf = ds ++ r.2.buf ∧ atoiU8 ds = some r.1 ∧
      ∀ b t, r.2.buf = b :: t → isDigit b = false) := by
  unfold scanVersionNumber
  refine (takeWhileLen_sat c.buf).bind ?_
  rintro n ⟨hn, hall, hlong⟩
  split
  · simp
  · rename_i v hv
    refine (adv_run hP hn (fun x hx => isDigit_noBrk (hall x hx))).bind ?_
    rintro c' ⟨hr, hb, -⟩
    refine ⟨hr, c.buf.take n, ?_, hall, ?_, hv, ?_⟩
    · intro h; rw [h] at hv; cases hv
    · simp [hb]
    · intro b t h
      refine hlong b ?_
      have : (c.buf.drop n)[0]? = some b := by rw [← hb, h]; rfl
      simpa using this

theorem scanDirective_sat {opts : SFlags} {kind : DirectiveKind} {c : Cur} (hP : P ∨ Ascii c.buf)
    (hpct : P ∨ NoPct c.buf) :
    Sat P (scanDirective opts kind c) (fun r => Reads c r.2 ∧ IsDirective r.1) := by
  unfold scanDirective
  cases kind with
  | Version =>
    refine (eatWs_sat hP).bind fun c1 h1 => ?_
    refine (scanVersionNumber_sat (h1.ascii hP)).bind ?_
    rintro ⟨major, c2⟩ ⟨h2, -⟩
    refine cache_bind ?_
    refine (requireDot_sat _).bind fun _ hdot => ?_
    obtain ⟨t, ht⟩ := startsWith_iff.1 hdot
    have h2 := h1.trans h2
    refine (adv_one (h2.ascii hP) (by simp [ht]) (by rw [ht]; rfl)).bind ?_
    rintro c3 ⟨h3, -⟩
    have h3 := h2.trans h3
    refine (scanVersionNumber_sat (h3.ascii hP)).bind ?_
    rintro ⟨minor, c4⟩ ⟨h4, -⟩
    exact ⟨h3.trans h4, .inl ⟨_, _, rfl⟩⟩
  | Tag =>
    refine (eatWs_sat hP).bind fun c1 h1 => ?_
    exact (scanTagDirective_sat (h1.ascii hP) (h1.noPct hpct)).mono
      fun r hr => ⟨h1.trans hr.1, hr.2⟩

theorem directiveKind_sat (s : Str) : Sat P (DirectiveKind.new s) (fun k => k.len ≤ s.length ∧
    ∀ b ∈ s.take k.len, NoBrk b) := by
  unfold DirectiveKind.new
  split
  · rename_i h
    obtain ⟨t, rfl⟩ := List.isPrefixOf_iff_prefix.1 h
    exact ⟨by simp [DirectiveKind.len], by simp [DirectiveKind.len]; decide⟩
  · split
    · rename_i h
      obtain ⟨t, rfl⟩ := List.isPrefixOf_iff_prefix.1 h
      exact ⟨by simp [DirectiveKind.len], by simp [DirectiveKind.len]; decide⟩
    · simp

theorem directiveToken_sat {opts : SFlags} {t : Str} {m : MStats} (hP : P ∨ Ascii (b! '%' :: t))
    (hpct : P ∨ NoPct (b! '%' :: t)) :
    Sat P (Scan.directiveToken opts ⟨b! '%' :: t, m⟩) (fun r => Reads ⟨b! '%' :: t, m⟩ r.2 ∧
      r.2.buf.length < t.length + 1 ∧ IsDirective r.1) := by
  unfold Scan.directiveToken
  refine cache_bind ?_
  simp only [List.drop_succ_cons, List.drop_zero]
  refine (directiveKind_sat t).bind ?_
  rintro k ⟨hk, hall⟩
  refine (adv_run (n := 1 + k.len) hP (by simp; omega) ?_).bind ?_
  · intro x hx
    rw [Nat.add_comm] at hx
    simp only [List.take_succ_cons, List.mem_cons] at hx
    rcases hx with rfl | hx
    · decide
    · exact hall x hx
  rintro c1 ⟨h1, hb, -⟩
  have hb1 : c1.buf = t.drop k.len := by
    rw [hb, Nat.add_comm]; rfl
  refine (scanDirective_sat (h1.ascii hP) ?_).mono ?_
  · exact h1.noPct hpct
  · rintro r ⟨hr, hd⟩
    refine ⟨h1.trans hr, ?_, hd⟩
    have := hr.length_le
    rw [hb1] at this
    simp at this
    omega

theorem scanVerbatim_sat {opts : SFlags} {c : Cur} (hP : P ∨ Ascii c.buf)
    (hpct : P ∨ NoPct c.buf) (hpre : [b! '!', b! '<'].isPrefixOf c.buf = true) :
    Sat P (scanVerbatim opts c) (fun r => Moves c r.2 ∧ r.2.buf.length < c.buf.length ∧
      startsWith r.2.buf b! '>' = true ∧ ∃ hd sf, r.1 = .Tag hd sf) := by
  obtain ⟨t, ht⟩ := List.isPrefixOf_iff_prefix.1 hpre
  unfold scanVerbatim
  refine Out.Sat.bind (skip_sat (n := 2) hP (by rw [← ht]; simp)) ?_
  rintro c1 rfl
  have hm : Moves c ⟨c.buf.drop 2, c.stats⟩ := .skip c 2
  have hpct1 : P ∨ NoPct (c.buf.drop 2) := hm.noPct hpct
  refine (scanTagUri_sat (hm.ascii hP) hpct1).bind ?_
  rintro ⟨u, c2⟩ ⟨h2, -⟩
  refine cache_bind ?_
  refine (requireClose_sat _).bind fun _ hcl => ?_
  have hm2 := hm.trans h2.moves
  have hlen : 1 ≤ c2.buf.length := by
    rcases hc2 : c2.buf with _ | ⟨x, y⟩
    · rw [hc2] at hcl; simp [startsWith] at hcl
    · simp
  refine Out.Sat.bind (skip_sat (n := 1) (hm2.ascii hP) hlen) ?_
  rintro c3 rfl
  refine ⟨hm2.trans (.skip c2 1), ?_, hcl, _, _, rfl⟩
  have := h2.length_le
  simp only [List.length_drop] at this ⊢
  rw [← ht] at this ⊢
  simp at this ⊢
  omega

/-- A node tag. -/
theorem scanNodeTag_sat {opts : SFlags} {t : Str} {m : MStats} (hP : P ∨ Ascii (b! '!' :: t))
    (hpct : P ∨ NoPct (b! '!' :: t)) :
    Sat P (scanNodeTag opts ⟨b! '!' :: t, m⟩) (fun r => Moves ⟨b! '!' :: t, m⟩ r.2 ∧
      r.2.buf.length < t.length + 1 ∧
      (Reads ⟨b! '!' :: t, m⟩ r.2 ∨ startsWith t b! '<' = true ∧
        startsWith r.2.buf b! '>' = true) ∧
      ∃ hd sf, r.1 = .Tag hd sf) := by
  unfold scanNodeTag
  refine cache_bind ?_
  split
  · rename_i h
    refine (scanVerbatim_sat hP hpct h).mono ?_
    rintro r ⟨h1, h2, h3, h4⟩
    refine ⟨h1, by simpa using h2, .inr ⟨?_, h3⟩, h4⟩
    obtain ⟨u, hu⟩ := List.isPrefixOf_iff_prefix.1 h
    simp only [List.cons_append, List.nil_append, List.cons.injEq, true_and] at hu
    simp [← hu, startsWith]
  · refine (scanTagHandle_sat (c := ⟨b! '!' :: t, m⟩)).bind ?_
    rintro ⟨r, m'⟩ h
    have key : ∀ n, Reads ⟨b! '!' :: t, m⟩ ⟨(b! '!' :: t).drop n, m'⟩ → n ≤ t.length + 1 → 0 < n →
        ∀ hd : Str, Sat P (do
          let c ← Cur.skip ⟨b! '!' :: t, m'⟩ n
          let (suffix, c) ← scanTagUri opts false c
          Out.ok (Token.Tag hd suffix, c)) (fun r => Moves ⟨b! '!' :: t, m⟩ r.2 ∧
      r.2.buf.length < t.length + 1 ∧
      (Reads ⟨b! '!' :: t, m⟩ r.2 ∨ startsWith t b! '<' = true ∧
        startsWith r.2.buf b! '>' = true) ∧
      ∃ hd sf, r.1 = .Tag hd sf) := by
      intro n hR hn h0 hd
      refine Out.Sat.bind (skip_sat (n := n) hP hn) ?_
      rintro c1 rfl
      refine (scanTagUri_sat (hR.ascii hP) (hR.noPct hpct)).bind ?_
      rintro ⟨u, c2⟩ ⟨h2, -⟩
      refine ⟨(hR.trans h2).moves, ?_, .inl (hR.trans h2), _, _, rfl⟩
      have := h2.length_le
      simp at this ⊢
      omega
    cases r with
    | none =>
      simp only at h ⊢
      refine cache_bind ?_
      refine (adv_one hP (by simp) rfl).bind ?_
      rintro c1 ⟨h1, hb, -, -⟩
      refine (scanTagUri_sat (h1.ascii hP) (h1.noPct hpct)).bind ?_
      rintro ⟨u, c2⟩ ⟨h2, -⟩
      refine ⟨(h1.trans h2).moves, ?_, .inl (h1.trans h2), _, _, rfl⟩
      have := h2.length_le
      rw [hb] at this
      simp at this ⊢
      omega
    | some hn =>
      obtain ⟨h', n⟩ := hn
      simp only at h
      obtain ⟨hR, hn, h0, -, -⟩ := h
      cases h' with
      | Primary p =>
        simp only
        refine Out.Sat.bind (skip_sat (n := n) hP hn) ?_
        rintro c1 rfl
        refine ⟨hR.moves, ?_, .inl hR, _, _, rfl⟩
        simp
        omega
      | Secondary p => exact key n hR hn h0 _
      | Named p => exact key n hR hn h0 _

end Yary
