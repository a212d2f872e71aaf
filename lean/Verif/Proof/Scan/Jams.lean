import Verif.Spec.Panics
import Verif.Proof.Scan.Faults

/-! # Where the scanner panics: white space, anchors, tags, directives -/

namespace Yary

open Spec

variable {opts : SFlags} {α β : Type}

/-- What is returned satisfies `Q`; a panic means `J`. -/
def Jams (x : Out ScanError α) (Q : α → Prop) (J : Prop) : Prop := (∀ a, x = .ok a → Q a) ∧ (x = .panic → J)

namespace Jams

variable {Q : α → Prop} {R : β → Prop} {J : Prop}

theorem ok {a : α} (h : Q a) : Jams (.ok a) Q J := ⟨fun _ h' => (by cases h'; exact h), fun h => by cases h⟩
theorem err {e : ScanError} : Jams (.err e) Q J := ⟨fun _ h => (by cases h), fun h => by cases h⟩
theorem panic (h : J) : Jams .panic Q J := ⟨fun _ h => (by cases h), fun _ => h⟩
theorem diverge : Jams .diverge Q J := ⟨fun _ h => (by cases h), fun h => by cases h⟩

theorem bind {x : Out ScanError α} {f : α → Out ScanError β} (h : Jams x Q J) (hi : ∀ a, Q a → Jams (f a) R J) : Jams (x >>= f) R J := by
  cases hx : x with
  | ok a => exact hi a (h.1 a hx)
  | err e => exact err
  | panic => exact panic (h.2 hx)
  | diverge => exact diverge

theorem mono {x : Out ScanError α} {Q' : α → Prop} {J' : Prop} (h : Jams x Q J) (hq : ∀ a, Q a → Q' a) (hj : J → J') : Jams x Q' J' :=
  ⟨fun a ha => hq a (h.1 a ha), fun hp => hj (h.2 hp)⟩

theorem post {x : Out ScanError α} {Q' : α → Prop} (h : Jams x Q J) (hq : ∀ a, Q a → Q' a) : Jams x Q' J := h.mono hq id

theorem never {x : Out ScanError α} (h : Jams x Q False) : Jams x Q J := h.mono (fun _ h => h) False.elim

/-- With what else is known of the result. -/
theorem and {x : Out ScanError α} {Q' : α → Prop} (h : Jams x Q J) (hp : Out.Par x Q') : Jams x (fun a => Q a ∧ Q' a) J :=
  ⟨fun a ha => ⟨h.1 a ha, hp a ha⟩, h.2⟩

theorem faults {x : Out ScanError α} {Q' : α → Prop} {F : ScanError → Prop} (h : Jams x Q J) (hp : Faults opts x Q' F) : Jams x (fun a => Q a ∧ Q' a) J :=
  h.and hp.1

end Jams

/-! ### The parts -/

variable {J : Prop}

theorem cache_jams (n : Nat) (s : Str) : Jams (cache opts n s) (fun _ => True) J := by
  refine ⟨fun _ _ => trivial, ?_⟩
  induction n generalizing s with
  | zero => intro h; cases h
  | succ n ih =>
    intro h
    rw [cache] at h
    split at h
    · split at h <;> cases h
    · exact ih _ h

theorem cache_jam {n : Nat} {s : Str} {k : Out ScanError α} {Q : α → Prop} (h : Jams k Q J) : Jams (cache opts n s >>= fun _ => k) Q J :=
  (cache_jams n s).bind fun _ _ => h

/-- Moving to a character boundary. -/
theorem adv_to {c : Cur} {p t : Str} (hb : c.buf = p ++ t) (ht : validUtf8 t = true) : isBoundary c.buf p.length = true := by
  unfold isBoundary
  cases t with
  | nil => rw [hb]; simp
  | cons b t =>
    have := validUtf8_head ht
    rw [hb]
    simp only [List.getElem?_append_right (Nat.le_refl _), Nat.sub_self, List.getElem?_cons_zero, Bool.or_eq_true, beq_iff_eq, decide_eq_true_eq]
    exact .inr this

theorem adv_jams {c : Cur} {n : Nat} {p t : Str} (hb : c.buf = p ++ t) (hn : n = p.length) (ht : validUtf8 t = true) :
    Jams (c.adv n) (fun c' => c' = ⟨t, c.stats.update n 0 n⟩) J := by
  unfold Cur.adv
  rw [if_pos (hn ▸ adv_to hb ht)]
  exact .ok (by rw [hb, hn, List.drop_left])

theorem skip_jams {c : Cur} {n : Nat} {p t : Str} (hb : c.buf = p ++ t) (hn : n = p.length) (ht : validUtf8 t = true) :
    Jams (c.skip n) (fun c' => c' = ⟨t, c.stats⟩) J := by
  unfold Cur.skip
  rw [if_pos (hn ▸ adv_to hb ht)]
  exact .ok (by rw [hb, hn, List.drop_left])

theorem valid_tail {b : Byte} {t : Str} (h : validUtf8 (b :: t) = true) (hb : b < 0x80) : validUtf8 t = true := by
  rwa [validUtf8_cons hb] at h

/-- The second byte of a wide character is no boundary. -/
theorem wide_boundary {b : Byte} {t : Str} (h : validUtf8 (b :: t) = true) (hb : 0x80 ≤ b) : isBoundary (b :: t) 1 = false := by
  obtain ⟨c, r, hc, -⟩ := validUtf8_uncons h
  have hr := charVal_range c
  rw [utf8Char_eq] at hc
  generalize c.val.toNat = v at hr hc
  split at hc
  · simp at hc; byte_omega
  · split at hc
    · simp only [List.cons_append, List.nil_append, List.cons.injEq] at hc
      obtain ⟨-, rfl⟩ := hc
      simp [isBoundary]; omega
    · split at hc
      · simp only [List.cons_append, List.nil_append, List.cons.injEq] at hc
        obtain ⟨-, rfl⟩ := hc
        simp [isBoundary]; omega
      · simp only [List.cons_append, List.nil_append, List.cons.injEq] at hc
        obtain ⟨-, rfl⟩ := hc
        simp [isBoundary]; omega

/-- Moving over a character that is no line break. -/
theorem adv_char_jams {c : Cur} {b : Byte} {t : Str} (hb : c.buf = b :: t) (hv : validUtf8 c.buf = true) (hn : isBreak c.buf = false) :
    Jams (c.adv 1) (fun c' => c' = ⟨t, c.stats.update 1 0 1⟩ ∧ b < 0x80 ∧ validUtf8 t = true) (Wide c.buf) := by
  by_cases h : b < 0x80
  · have ht : validUtf8 t = true := valid_tail (hb ▸ hv) h
    exact (adv_jams (p := [b]) hb rfl ht).post fun c' h' => ⟨h', h, ht⟩
  · unfold Cur.adv
    rw [hb, wide_boundary (hb ▸ hv) (by byte_omega)]
    refine .panic ⟨⟨b, t, rfl, by byte_omega⟩, ?_⟩
    rw [← hb]
    exact not_break.1 hn

theorem break_valid {w t : Str} (h : BreakBefore w t) (hv : validUtf8 (w ++ t) = true) : validUtf8 t = true := by
  rwa [validUtf8_append] at hv
  have hw := h.1
  simp only [lineBreaks, List.mem_cons, List.not_mem_nil, or_false] at hw
  rcases hw with rfl | rfl | rfl | rfl | rfl | rfl <;> decide

theorem line_jams {c : Cur} (hv : validUtf8 c.buf = true) (hb : isBreak c.buf = true) :
    Jams c.line (fun c' => c.line = .ok c' ∧ ∃ w t, BreakBefore w t ∧ c.buf = w ++ t ∧ c' = ⟨t, c.stats.update w.length 1 0⟩ ∧ validUtf8 t = true) J := by
  obtain ⟨w, t, h1, h2, h3⟩ := break_split hb
  have h4 : breakLen c.buf = w.length := by rw [h1]; exact breakLen_before h2
  have ht := break_valid h2 (h1 ▸ hv)
  have : c.line = .ok ⟨t, c.stats.update w.length 1 0⟩ := by
    unfold Cur.line
    rw [h4, if_pos (adv_to h1 ht), h1, List.drop_left]
  rw [this]
  exact .ok ⟨rfl, w, t, h2, h1, rfl, ht⟩

/-- A line break that need not be there. -/
theorem line_jams' {c : Cur} (hv : validUtf8 c.buf = true) : Jams c.line (fun c' => c.line = .ok c' ∧ validUtf8 c'.buf = true) J := by
  cases hb : isBreak c.buf with
  | true =>
    refine (line_jams hv hb).post ?_
    rintro _ ⟨h, w, t, -, -, rfl, h'⟩
    exact ⟨h, h'⟩
  | false =>
    have : c.line = .ok ⟨c.buf, c.stats.update 0 1 0⟩ := by
      unfold Cur.line
      rw [breakLen_zero hb]
      simp [isBoundary]
    rw [this]
    exact .ok ⟨rfl, hv⟩

theorem boundary_zero {s : Str} : isBoundary s 0 = true := rfl

/-- A slice between character boundaries. -/
theorem slice_jams {s p q t : Str} {a b : Nat} (hs : s = p ++ (q ++ t)) (ha : a = p.length) (hb : b = p.length + q.length) (hq : validUtf8 (q ++ t) = true)
    (ht : validUtf8 t = true) : Jams (slice s a b) (fun r => r = q) J := by
  unfold slice
  rw [if_pos]
  · refine .ok ?_
    rw [hs, ha, hb, List.drop_left, show p.length + q.length - p.length = q.length by omega, List.take_left]
  · have h1 : isBoundary s a = true := ha ▸ adv_to (c := ⟨s, {}⟩) hs hq
    have h2 : isBoundary s b = true := by
      have := adv_to (c := ⟨s, {}⟩) (p := p ++ q) (t := t) (by rw [hs, List.append_assoc]) ht
      rw [List.length_append] at this
      exact hb ▸ this
    rw [h1, h2]
    simp; omega

theorem takeWhile_jams {f : Byte → Bool} (s : Str) : Jams (takeWhileLen opts f s) (fun n => ∃ p r, s = p ++ r ∧ p.length = n ∧ ∀ b ∈ p, f b = true) J := by
  induction s with
  | nil =>
    rw [takeWhileLen]
    split
    · exact .err
    · exact .ok ⟨[], [], rfl, rfl, by simp⟩
  | cons b t ih =>
    rw [takeWhileLen]
    refine cache_jam ?_
    split
    · rename_i hb
      refine ih.bind ?_
      rintro n ⟨p, r, rfl, rfl, h1⟩
      refine .ok ⟨b :: p, r, rfl, rfl, ?_⟩
      intro x hx
      rcases List.mem_cons.1 hx with rfl | hx
      · exact hb
      · exact h1 x hx
    · exact .ok ⟨[], b :: t, rfl, rfl, by simp⟩

/-! ### White space -/

theorem sameLine_cons {b : Byte} {l t : Str} (hb : isBreak (b :: (l ++ t)) = false) (h : SameLine l t) : SameLine (b :: l) t := by
  intro i hi
  cases i with
  | zero => exact not_break.1 hb
  | succ i => exact h i (by simpa using hi)

theorem eatWs_jams {comments : Bool} {c : Cur} (hv : validUtf8 c.buf = true) :
    Jams (eatWs opts comments c) (fun c' => validUtf8 c'.buf = true) (comments = true ∧ WideComment c.buf) := by
  refine ⟨fun c' h => eatWs_valid hv h, ?_⟩
  suffices h : ∀ fuel chomp (c : Cur), validUtf8 c.buf = true → (chomp = true → comments = true) → eatWsLoop opts comments fuel chomp c = .panic →
      comments = true ∧ if chomp then (∃ l t, c.buf = l ++ t ∧ SameLine l t ∧ Wide t) ∨ ∃ l t, c.buf = l ++ t ∧ RestOfLine l t ∧ WideComment t
        else WideComment c.buf from h _ _ c hv (fun h => by cases h)
  intro fuel
  induction fuel with
  | zero => intro _ _ _ _ h; cases h
  | succ fuel ih =>
    intro chomp c hv hc
    rw [eatWsLoop]
    refine (Jams.bind (Q := fun _ => True) (R := fun _ => True) (cache_jams _ _) fun _ _ => ?_).2
    -- one more character of a comment
    have inside : ∀ {b : Byte} {t : Str}, c.buf = b :: t → isBreak c.buf = false →
        ((∃ l u, t = l ++ u ∧ SameLine l u ∧ Wide u) ∨ ∃ l u, t = l ++ u ∧ RestOfLine l u ∧ WideComment u) →
        (∃ l u, c.buf = l ++ u ∧ SameLine l u ∧ Wide u) ∨ ∃ l u, c.buf = l ++ u ∧ RestOfLine l u ∧ WideComment u := by
      rintro b t hb hn (⟨l, u, rfl, h1, h2⟩ | ⟨l, u, rfl, h1, h2⟩)
      · exact .inl ⟨b :: l, u, hb, sameLine_cons (hb ▸ hn) h1, h2⟩
      · exact .inr ⟨b :: l, u, hb, ⟨sameLine_cons (hb ▸ hn) h1.1, h1.2⟩, h2⟩
    split
    · rename_i hbl
      obtain ⟨b, t, hb, hbb⟩ := isBlank_iff.1 hbl
      have hb8 : b < 0x80 := by rcases hbb with rfl | rfl <;> decide
      have ht := valid_tail (hb ▸ hv) hb8
      refine (adv_jams (p := [b]) hb rfl ht).bind ?_
      rintro _ rfl
      refine ⟨fun _ _ => trivial, fun h => ?_⟩
      obtain ⟨h1, h2⟩ := ih chomp _ ht hc h
      refine ⟨h1, ?_⟩
      cases chomp with
      | true => exact inside hb (isBlank_break hbl) h2
      | false => simp only [Bool.false_eq_true, ↓reduceIte] at h2 ⊢; rw [hb]; exact .blank hbb h2
    · rename_i hnbl
      split
      · rename_i hbr
        refine (line_jams hv hbr).bind ?_
        rintro _ ⟨-, w, t, hw, hb, rfl, ht⟩
        refine ⟨fun _ _ => trivial, fun h => ?_⟩
        obtain ⟨h1, h2⟩ := ih false _ ht (fun h => by cases h) h
        simp only [Bool.false_eq_true, ↓reduceIte] at h2
        refine ⟨h1, ?_⟩
        have : WideComment c.buf := by rw [hb]; exact .line hw h2
        cases chomp with
        | true => exact .inr ⟨[], c.buf, rfl, ⟨fun i hi => absurd hi (by simp), .inr (atBreak_iff.2 hbr)⟩, this⟩
        | false => exact this
      · rename_i hnbr
        have hnbr : isBreak c.buf = false := by simpa using hnbr
        split
        · rename_i hcm
          simp only [Bool.and_eq_true] at hcm
          obtain ⟨hcm, hh⟩ := hcm
          obtain ⟨t, hb⟩ := startsWith_iff.1 hh
          have ht := valid_tail (hb ▸ hv) (by decide)
          refine (adv_jams (p := [b! '#']) hb rfl ht).bind ?_
          rintro _ rfl
          refine ⟨fun _ _ => trivial, fun h => ?_⟩
          obtain ⟨h1, h2⟩ := ih true _ ht (fun _ => hcm) h
          simp only [↓reduceIte] at h2
          refine ⟨h1, ?_⟩
          cases chomp with
          | true => exact inside hb hnbr h2
          | false =>
            simp only [Bool.false_eq_true, ↓reduceIte]
            rw [hb]
            rcases h2 with ⟨l, u, rfl, g1, g2⟩ | ⟨l, u, rfl, g1, g2⟩
            · exact .here g1 g2
            · exact .comment g1 g2
        · split
          · rename_i hch
            simp only [Bool.and_eq_true, Bool.not_eq_true'] at hch
            obtain ⟨hch, hne⟩ := hch
            subst hch
            obtain ⟨b, t, hb⟩ : ∃ b t, c.buf = b :: t := by
              cases hcb : c.buf with
              | nil => rw [hcb] at hne; cases hne
              | cons b t => exact ⟨b, t, rfl⟩
            refine ((adv_char_jams hb hv hnbr).mono (fun _ h => h) fun h => ?_).bind ?_
            · exact ⟨hc rfl, .inl ⟨[], c.buf, rfl, fun i hi => absurd hi (by simp), h⟩⟩
            · rintro _ ⟨rfl, -, ht⟩
              refine ⟨fun _ _ => trivial, fun h => ?_⟩
              obtain ⟨h1, h2⟩ := ih true _ ht hc h
              exact ⟨h1, inside hb hnbr h2⟩
          · exact .ok trivial

theorem eatWs_clear {c : Cur} (hv : validUtf8 c.buf = true) : Jams (eatWs opts false c) (fun c' => validUtf8 c'.buf = true) J :=
  (eatWs_jams hv).mono (fun _ h => h) fun h => by cases h.1

/-! ### Anchors -/

theorem alnum_ascii {p : Str} (h : ∀ b ∈ p, isAlnum b = true) : Ascii p := fun b hb => isAlnum_ascii (h b hb)

theorem scanAnchor_jams {isAlias : Bool} {b : Byte} {t : Str} {m : MStats} (hv : validUtf8 (b :: t) = true) (hb : b < 0x80) :
    Jams (scanAnchor opts isAlias ⟨b :: t, m⟩) (fun r => validUtf8 r.2.buf = true) J := by
  unfold scanAnchor
  have ht := valid_tail hv hb
  refine (adv_jams (p := [b]) rfl rfl ht).bind ?_
  rintro _ rfl
  simp only
  refine (takeWhile_jams t).bind ?_
  rintro _ ⟨p, r, rfl, rfl, h1⟩
  have hr := validUtf8_drop_ascii (alnum_ascii h1) ht
  refine (adv_jams rfl rfl hr).bind ?_
  rintro _ rfl
  split
  · exact .err
  · refine cache_jam ?_
    refine Jams.bind (Q := fun _ => True) ?_ fun _ _ => .ok hr
    unfold checkAnchorEnd
    repeat' split
    all_goals first | exact .err | exact .ok trivial

/-! ### Tags -/

theorem pct_ascii {w os : Str} (h : PctText w os) : Ascii w := (h.decode (verbatim := false)).ascii

theorem percentOctet_jams (s : Str) : Jams (percentOctet opts s) (fun _ => True) J := by
  unfold percentOctet
  refine cache_jam ?_
  repeat' split
  all_goals first | exact .err | exact .ok trivial

theorem percentTrail_jams (n : Nat) (s : Str) : Jams (percentTrail opts n s) (fun _ => True) J := by
  induction n generalizing s with
  | zero => exact .ok trivial
  | succ n ih =>
    rw [percentTrail]
    refine (percentOctet_jams _).bind fun _ _ => ?_
    split
    · exact (ih _).bind fun _ _ => .ok trivial
    · exact .err

theorem tagUriUnescape_jams (s : Str) : Jams (tagUriUnescape opts s) (fun os => ∃ w t, s = w ++ t ∧ PctText w os) J := by
  refine ⟨fun os h => ?_, ?_⟩
  · obtain ⟨o, r, w, t, -, -, -, h1, h2⟩ := (tagUriUnescape_sat (P := True) s).of_ok h
    exact ⟨w, t, h1, h2⟩
  · unfold tagUriUnescape
    refine And.right (?_ : Jams _ (fun _ => True) J)
    refine (percentOctet_jams _).bind fun _ _ => ?_
    split
    · exact .err
    · exact (percentTrail_jams _ _).bind fun _ _ => .ok trivial

theorem scanUriLoop_jams {verbatim : Bool} {base : Str} {fuel : Nat} {st : UriSt} (hv : validUtf8 st.cur.buf = true) :
    Jams (scanUriLoop opts verbatim base fuel st) (fun st' => validUtf8 st'.cur.buf = true) J := by
  induction fuel generalizing st with
  | zero => exact .diverge
  | succ fuel ih =>
    rw [scanUriLoop]
    refine cache_jam ?_
    split
    · exact .err
    · rename_i b t hb
      split
      · rename_i h
        have hp : uriPlain verbatim b = true := by simpa [uriPlain] using h
        have ht := valid_tail (hb ▸ hv) (uriPlain_ascii hp)
        unfold UriSt.push
        refine Jams.bind (Q := fun st' => validUtf8 st'.cur.buf = true) ?_ fun _ h => ih h
        refine (adv_jams (p := [b]) hb rfl ht).bind ?_
        rintro _ rfl
        exact .ok ht
      · split
        · unfold UriSt.percent
          refine Jams.bind (Q := fun st' => validUtf8 st'.cur.buf = true) ?_ fun _ h => ih h
          refine (tagUriUnescape_jams _).bind ?_
          rintro os ⟨w, u, h1, h2⟩
          have hu := validUtf8_drop_ascii (pct_ascii h2) (h1 ▸ hv)
          refine (adv_jams h1 h2.length.symm hu).bind ?_
          rintro _ rfl
          exact .ok hu
        · exact .ok hv

theorem scanTagUri_jams {verbatim : Bool} {c : Cur} (hv : validUtf8 c.buf = true) :
    Jams (scanTagUri opts verbatim c) (fun r => validUtf8 r.2.buf = true) (NoUtf8 verbatim c.buf) := by
  unfold scanTagUri
  have hp := (scanUriLoop_sat (P := True) (opts := opts) (verbatim := verbatim) (c := c) (fuel := c.buf.length + 1) (st := { cur := c }) (w := []) (u := []) (.inl trivial)
    (by simp) ⟨rfl, .nil, .refl c, fun _ => ⟨rfl, rfl⟩, fun h => by cases h⟩).par
  refine ((scanUriLoop_jams hv).and hp).bind ?_
  rintro st ⟨hvs, w, u, hi, b, t, hb, h1, h2⟩
  split
  · refine Jams.bind (Q := fun _ => True) ((slice_jams (p := []) (q := w) (t := st.cur.buf) hi.text rfl ?_ (hi.text ▸ hv) hvs).post fun _ _ => trivial)
      fun _ _ => .ok hvs
    rw [hi.text]; simp
  · rename_i hcb
    refine Jams.bind (Q := fun _ => True) ?_ fun _ _ => .ok hvs
    unfold fromUtf8Unwrap
    split
    · exact .ok trivial
    · rename_i hn
      rw [hi.copy (by simpa using hcb)] at hn
      refine .panic ⟨w, u, st.cur.buf, hi.text, hi.uri.decode, hb ▸ uriEnds_of h1 h2, ?_⟩
      rw [← validUtf8_iff]
      exact hn

theorem scanTagHandle_jams {c : Cur} : Jams (scanTagHandle opts c) (fun _ => True) J := by
  refine ⟨fun _ _ => trivial, ?_⟩
  unfold scanTagHandle
  refine And.right (?_ : Jams _ (fun _ => True) J)
  refine cache_jam ?_
  split
  · exact .err
  · split
    · exact .err
    · refine (takeWhile_jams _).bind fun _ _ => cache_jam ?_
      repeat' split
      all_goals first | exact .err | exact .ok trivial

theorem handle_ascii {h s : Str} (hh : HandleAt h s) : Ascii h := by
  cases hh with
  | primary _ => exact .cons (by decide) .nil
  | named hn => exact .cons (by decide) ((alnum_ascii fun b hb => isAlnum_iff.2 (hn b hb)).append (.cons (by decide) .nil))

theorem scanNodeTag_jams (t : Str) {m : MStats} (hv : validUtf8 (b! '!' :: t) = true) :
    Jams (scanNodeTag opts ⟨b! '!' :: t, m⟩) (fun r => validUtf8 r.2.buf = true) (TagJam (b! '!' :: t)) := by
  unfold scanNodeTag
  refine cache_jam ?_
  split
  · rename_i h
    obtain ⟨s, hs⟩ := List.isPrefixOf_iff_prefix.1 h
    have hs' : t = b! '<' :: s := by simpa using hs.symm
    subst hs'
    have h0 : b! '!' :: b! '<' :: s = bytes! "!<" ++ s := rfl
    have hvs : validUtf8 s = true := valid_tail (valid_tail hv (by decide)) (by decide)
    unfold scanVerbatim
    refine (skip_jams (p := [b! '!', b! '<']) rfl rfl hvs).bind ?_
    rintro _ rfl
    refine Jams.bind (((scanTagUri_jams hvs).mono (fun _ h => h) fun he => by rw [h0]; exact .verbatim he).faults (scanTagUri_faults (opts := opts) _)) ?_
    rintro ⟨v, r⟩ ⟨hvr, w, u, h1, h2, h3⟩
    simp only at hvr h1 h3
    refine cache_jam ?_
    obtain ⟨b, q, hb, -⟩ := id h3
    refine Jams.bind (Q := fun _ => ∃ z, q = b! '>' :: z) ?_ ?_
    · rw [hb]
      simp only [List.drop_succ_cons, List.drop_zero]
      cases q with
      | nil => exact .err
      | cons x q =>
        simp only [requireClose]
        split
        · rename_i hx; exact .ok ⟨q, by rw [hx]⟩
        · exact .err
    · rintro _ ⟨z, rfl⟩
      have hz : validUtf8 (b! '>' :: z) = true := by
        have h0 := hvr
        rw [hb] at h0
        have hbb : b < 0x80 := by
          by_cases h8 : b < 0x80
          · exact h8
          · have := wide_boundary h0 (by byte_omega)
            simp [isBoundary] at this
        exact valid_tail h0 hbb
      refine Jams.bind (Q := fun c => validUtf8 c.buf = true) ?_ fun _ h => .ok h
      unfold Cur.skip
      rw [if_pos (by rw [hb]; simp [isBoundary])]
      exact .ok (by rw [hb]; exact hz)
  · rename_i hpre
    have hpre : ∀ u, b! '!' :: t ≠ bytes! "!<" ++ u := by
      intro u hu
      apply hpre
      rw [show (⟨b! '!' :: t, m⟩ : Cur).buf = b! '!' :: t from rfl, hu]
      exact List.isPrefixOf_iff_prefix.2 ⟨u, rfl⟩
    refine Jams.bind (scanTagHandle_jams.faults (scanTagHandle_faults (opts := opts) _)) ?_
    rintro ⟨r, stats⟩ ⟨-, ⟨h, n, h0, hd, s, h1, rfl, h2, h3, h4⟩ | ⟨h0, name, x, u, h1, h2, h3, h4, h5⟩⟩
    · simp only at h0 h1
      subst h0
      have hvs := validUtf8_drop_ascii (handle_ascii h2) (h1 ▸ hv)
      have go : ∀ c : Cur, c.buf = s → Jams (do
          let (suffix, c) ← scanTagUri opts false c
          .ok (Token.Tag h.inner suffix, c)) (fun r => validUtf8 r.2.buf = true) (TagJam (b! '!' :: t)) := by
        intro c hc
        refine .bind ((scanTagUri_jams (hc ▸ hvs)).mono (fun _ h => h) fun he => ?_) fun _ h => .ok h
        rw [hc] at he
        rw [h1]
        exact .suffix h2 (fun u hu => hpre u (by rw [← hu, ← h1])) he
      cases h with
      | Primary x =>
        refine (skip_jams h1 rfl hvs).bind ?_
        rintro _ rfl
        exact .ok hvs
      | Secondary x =>
        refine (skip_jams h1 rfl hvs).bind ?_
        rintro _ rfl
        exact go _ rfl
      | Named x =>
        refine (skip_jams h1 rfl hvs).bind ?_
        rintro _ rfl
        exact go _ rfl
    · simp only at h0 h1
      subst h0
      have ht := valid_tail hv (by decide)
      refine cache_jam ((adv_jams (p := [b! '!']) rfl rfl ht).bind ?_)
      rintro _ rfl
      obtain ⟨-, rfl⟩ := List.cons.inj h1
      refine .bind ((scanTagUri_jams ht).mono (fun _ h => h) fun he => ?_) fun _ h => .ok h
      exact TagJam.suffix (h := [b! '!']) (handle_primary h2 h3 h4) hpre he

/-! ### Directives -/

theorem digits_ascii {d : Str} (h : ∀ b ∈ d, isDigit b = true) : Ascii d := alnum_ascii fun b hb => by simp [isAlnum, h b hb]

theorem versionNumber_jams {c : Cur} (hv : validUtf8 c.buf = true) : Jams (scanVersionNumber opts c) (fun r => validUtf8 r.2.buf = true) J := by
  unfold scanVersionNumber
  refine (takeWhile_jams _).bind ?_
  rintro _ ⟨p, r, h0, rfl, h1⟩
  split
  · exact .err
  · have hr := validUtf8_drop_ascii (digits_ascii h1) (h0 ▸ hv)
    refine (adv_jams h0 rfl hr).bind ?_
    rintro _ rfl
    exact .ok hr

theorem scanTagDirective_jams (s : Str) {c : Cur} {n : Nat} (hs : Skips false s n c.buf) (hv : validUtf8 c.buf = true) :
    Jams (scanTagDirective opts c) (fun r => validUtf8 r.2.buf = true) (DirectiveJam (bytes! "%TAG" ++ s)) := by
  unfold scanTagDirective
  refine Jams.bind (scanTagHandle_jams.faults (scanTagHandle_faults (opts := opts) _)) ?_
  rintro ⟨r, stats⟩ ⟨-, ⟨h, n, h0, hd, s', h1, rfl, h2, h3, -⟩ | ⟨h0, -⟩⟩
  · simp only at h0
    subst h0
    have hvs := validUtf8_drop_ascii (handle_ascii h2) (h1 ▸ hv)
    rw [h1] at hs
    simp only
    refine (skip_jams (c := ⟨c.buf, stats⟩) h1 rfl hvs).bind ?_
    rintro _ rfl
    refine cache_jam ?_
    refine Jams.bind (Q := fun _ => ∃ t, s' = 0x20 :: t ∨ s' = 0x09 :: t) ?_ ?_
    · cases s' with
      | nil => exact .err
      | cons x t =>
        simp only [requireBlank]
        split
        · rename_i hb
          obtain ⟨b, t', h, hb⟩ := Blocks.blank_cases hb
          obtain ⟨rfl, rfl⟩ := List.cons.inj h
          exact .ok (hb.elim (fun h => ⟨_, .inl (by rw [h])⟩) fun h => ⟨_, .inr (by rw [h])⟩)
        · exact .err
    · intro _ hb
      refine ((eatWs_clear hvs).and eatWs_par).bind ?_
      rintro c' ⟨hvc, n', hs'⟩
      simp only at hs'
      refine .bind ((scanTagUri_jams hvc).mono (fun _ h => h) fun he => .uri hs h2 hb hs' he) fun _ hu => ?_
      refine Jams.bind (Q := fun _ => True) ?_ fun _ _ => .ok hu
      unfold requireWhiteSpace
      repeat' split
      all_goals first | exact .err | exact .ok trivial
  · simp only at h0
    subst h0
    exact .err

theorem directive_jams (s : Str) {m : MStats} (hv : validUtf8 (b! '%' :: s) = true) :
    Jams (Scan.directiveToken opts ⟨b! '%' :: s, m⟩) (fun r => validUtf8 r.2.buf = true) (DirectiveJam (b! '%' :: s)) := by
  unfold Scan.directiveToken
  refine cache_jam ?_
  simp only [List.drop_succ_cons, List.drop_zero]
  refine Jams.bind (Q := fun k => (k = .Version ∧ ∃ t, s = bytes! "YAML" ++ t) ∨ (k = .Tag ∧ ∃ t, s = bytes! "TAG" ++ t)) ?_ ?_
  · unfold DirectiveKind.new
    split
    · rename_i h
      obtain ⟨t, h⟩ := List.isPrefixOf_iff_prefix.1 h
      exact .ok (.inl ⟨rfl, t, h.symm⟩)
    · split
      · rename_i h
        obtain ⟨t, h⟩ := List.isPrefixOf_iff_prefix.1 h
        exact .ok (.inr ⟨rfl, t, h.symm⟩)
      · exact .err
  · rintro k (⟨rfl, t, rfl⟩ | ⟨rfl, t, rfl⟩)
    · have ht : validUtf8 t = true := validUtf8_drop_ascii (p := bytes! "%YAML") (by unfold Ascii; decide) hv
      refine (adv_jams (p := bytes! "%YAML") rfl rfl ht).bind ?_
      rintro _ rfl
      simp only [scanDirective]
      refine (eatWs_clear ht).bind fun c hc => (versionNumber_jams hc).bind fun r hr => cache_jam ?_
      refine Jams.bind (Q := fun _ => ∃ t, r.2.buf = b! '.' :: t) ?_ ?_
      · cases hb : r.2.buf with
        | nil => exact .err
        | cons x u =>
          simp only [requireDot]
          split
          · rename_i hx
            exact .ok ⟨u, by rw [hx]⟩
          · exact .err
      · rintro _ ⟨u, hu⟩
        have hvu := valid_tail (hu ▸ hr) (by decide)
        refine (adv_jams (p := [b! '.']) hu rfl hvu).bind ?_
        rintro _ rfl
        exact (versionNumber_jams hvu).bind fun _ h => .ok h
    · have ht : validUtf8 t = true := validUtf8_drop_ascii (p := bytes! "%TAG") (by unfold Ascii; decide) hv
      refine (adv_jams (p := bytes! "%TAG") rfl rfl ht).bind ?_
      rintro _ rfl
      simp only [scanDirective]
      refine ((eatWs_clear ht).and eatWs_par).bind ?_
      rintro c ⟨hc, n, hs⟩
      exact scanTagDirective_jams t hs hc

end Yary
