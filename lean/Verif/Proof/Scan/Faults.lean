import Verif.Spec.Faults
import Verif.Proof.Scan.BlockMeans
import Verif.Proof.Scan.Directives
import Verif.Proof.Scan.TagOk
import Verif.Proof.Scan.PlainText

/-! # Scan errors name what is wrong: anchors, tags, directives -/

namespace Yary

open Spec

variable {opts : SFlags}

/-- What is returned satisfies `Q`; an error is one of `F`, or more text is asked for. -/
def Faults {α : Type} (opts : SFlags) (x : Out ScanError α) (Q : α → Prop) (F : ScanError → Prop) : Prop :=
  (∀ a, x = .ok a → Q a) ∧ ∀ e, x = .err e → e = .Extend ∧ opts.extendable = true ∨ F e

namespace Faults
variable {α β : Type} {Q : α → Prop} {R : β → Prop} {F : ScanError → Prop}

theorem ok {a : α} (h : Q a) : Faults opts (.ok a) Q F := ⟨fun _ h' => (by cases h'; exact h), fun _ h => by cases h⟩
theorem err {e : ScanError} (h : F e) : Faults opts (.err e) Q F := ⟨fun _ h => (by cases h), fun _ h' => by cases h'; exact .inr h⟩
theorem panic : Faults opts .panic Q F := ⟨fun _ h => (by cases h), fun _ h => by cases h⟩
theorem diverge : Faults opts .diverge Q F := ⟨fun _ h => (by cases h), fun _ h => by cases h⟩

theorem bind {x : Out ScanError α} {f : α → Out ScanError β} (h : Faults opts x Q F) (hi : ∀ a, Q a → Faults opts (f a) R F) :
    Faults opts (x >>= f) R F := by
  cases hx : x with
  | ok a => exact hi a (h.1 a hx)
  | err e => exact ⟨fun _ h' => (by cases h'), fun e' h' => by cases h'; exact h.2 e hx⟩
  | panic => exact panic
  | diverge => exact diverge

theorem mono {x : Out ScanError α} {Q' : α → Prop} {F' : ScanError → Prop} (h : Faults opts x Q F) (hq : ∀ a, Q a → Q' a)
    (hf : ∀ e, F e → F' e) : Faults opts x Q' F' :=
  ⟨fun a ha => hq a (h.1 a ha), fun e he => (h.2 e he).imp id (hf e)⟩

theorem par {x : Out ScanError α} (h : Faults opts x (fun _ => True) F) (hp : Out.Par x Q) : Faults opts x Q F := ⟨hp, h.2⟩

end Faults

/-! ### The parts -/

variable {F : ScanError → Prop}

theorem cache_faults (n : Nat) (s : Str) : Faults opts (cache opts n s) (fun _ => True) F := by
  refine ⟨fun _ _ => trivial, ?_⟩
  induction n generalizing s with
  | zero => intro e h; cases h
  | succ n ih =>
    intro e h
    rw [cache] at h
    split at h
    · split at h
      · rename_i hx; cases h; exact .inl ⟨rfl, hx⟩
      · cases h
    · exact ih _ e h

theorem adv_faults {c : Cur} {n : Nat} : Faults opts (c.adv n) (fun c' => c' = ⟨c.buf.drop n, c.stats.update n 0 n⟩) F :=
  ⟨adv_par, fun e h => by unfold Cur.adv at h; split at h <;> cases h⟩

theorem skip_faults {c : Cur} {n : Nat} : Faults opts (c.skip n) (fun c' => c' = ⟨c.buf.drop n, c.stats⟩) F := by
  unfold Cur.skip
  split
  · exact .ok rfl
  · exact .panic

theorem line_faults {c : Cur} : Faults opts c.line (fun c' => c.line = .ok c') F :=
  ⟨fun _ h => h, fun e h => by unfold Cur.line at h; split at h <;> cases h⟩

theorem slice_faults {s : Str} {a b : Nat} : Faults opts (slice s a b) (fun _ => True) F := by
  unfold slice
  split
  · exact .ok trivial
  · exact .panic

theorem utf8_faults {s : Str} : Faults opts (fromUtf8Unwrap s) (fun _ => True) F := by
  unfold fromUtf8Unwrap
  split
  · exact .ok trivial
  · exact .panic

theorem takeWhile_faults {f : Byte → Bool} (s : Str) : Faults opts (takeWhileLen opts f s)
    (fun n => ∃ p r, s = p ++ r ∧ p.length = n ∧ (∀ b ∈ p, f b = true) ∧ ∀ b t, r = b :: t → f b = false) F := by
  induction s with
  | nil =>
    rw [takeWhileLen]
    split
    · rename_i hx; exact ⟨fun _ h => (by cases h), fun _ h => by cases h; exact .inl ⟨rfl, hx⟩⟩
    · exact .ok ⟨[], [], rfl, rfl, by simp, by simp⟩
  | cons b t ih =>
    rw [takeWhileLen]
    refine (cache_faults _ _).bind fun _ _ => ?_
    split
    · rename_i hb
      refine ih.bind ?_
      rintro n ⟨p, r, rfl, rfl, h1, h2⟩
      refine .ok ⟨b :: p, r, rfl, rfl, ?_, h2⟩
      intro x hx
      rcases List.mem_cons.1 hx with rfl | hx
      · exact hb
      · exact h1 x hx
    · rename_i hb
      refine .ok ⟨[], b :: t, rfl, rfl, by simp, ?_⟩
      rintro _ _ ⟨⟩
      simpa using hb

theorem eatWs_faults {c : Cur} {comments : Bool} : Faults opts (eatWs opts comments c) (fun c' => ∃ n, Skips comments c.buf n c'.buf) F := by
  refine ⟨eatWs_par, ?_⟩
  suffices h : ∀ fuel chomp c, Faults opts (eatWsLoop opts comments fuel chomp c) (fun _ => True) F from (h _ _ _).2
  intro fuel
  induction fuel with
  | zero => intro _ _; exact .diverge
  | succ fuel ih =>
    intro chomp c
    rw [eatWsLoop]
    refine (cache_faults _ _).bind fun _ _ => ?_
    repeat' split
    · exact adv_faults.bind fun _ _ => ih _ _
    · exact line_faults.bind fun _ _ => ih _ _
    · exact adv_faults.bind fun _ _ => ih _ _
    · exact adv_faults.bind fun _ _ => ih _ _
    · exact .ok trivial

/-! ### Anchors -/

theorem scanAnchor_faults {isAlias : Bool} {b : Byte} {t : Str} {m : MStats} (hb : b = b! '&' ∨ b = b! '*') :
    Faults opts (scanAnchor opts isAlias ⟨b :: t, m⟩) (fun _ => True) (fun e => AnchorFault e (b :: t)) := by
  unfold scanAnchor
  refine adv_faults.bind ?_
  rintro _ rfl
  simp only [List.drop_succ_cons, List.drop_zero]
  refine (takeWhile_faults t).bind ?_
  rintro _ ⟨p, r, rfl, rfl, h1, h2⟩
  refine adv_faults.bind ?_
  rintro _ rfl
  have hr : ∀ x t, r = x :: t → ¬ IsAlnum x := fun x t h => by rw [← isAlnum_iff, h2 x t h]; simp
  simp only [List.take_left', List.drop_left]
  split
  · rename_i h
    have := List.isEmpty_iff.1 h
    subst this
    exact .err (.empty hb (by simpa using hr))
  · rename_i h
    refine (cache_faults _ _).bind fun _ _ => ?_
    cases r with
    | nil =>
      refine .bind (Q := fun _ => True) (.err ?_) fun _ _ => .ok trivial
      rw [List.append_nil]
      exact .ends hb (by simpa using h) fun x hx => isAlnum_iff.1 (h1 x hx)
    | cons x r =>
      simp only [checkAnchorEnd]
      split
      · exact .ok trivial
      · rename_i hx
        refine .bind (Q := fun _ => True) (.err ?_) fun _ _ => .ok trivial
        exact .after hb (fun x hx => isAlnum_iff.1 (h1 x hx)) (hr x r rfl) fun h => hx (anchorEnd_iff.2 h)

/-! ### Tags -/

theorem percentOctet_faults (s : Str) : Faults opts (percentOctet opts s)
    (fun o => ∃ x y t, s = b! '%' :: x :: y :: t ∧ hexNumber [x, y] = some o)
    (fun e => e = .UnexpectedEOF ∧ s.length < 3 ∨ e = .UnknownEscape ∧ 3 ≤ s.length ∧ ∀ x y t, s = b! '%' :: x :: y :: t → hexNumber [x, y] = none) := by
  unfold percentOctet
  refine (cache_faults _ _).bind fun _ _ => ?_
  split
  · rename_i p a b t
    split
    · rename_i h
      simp only [Bool.and_eq_true, decide_eq_true_eq] at h
      obtain ⟨⟨rfl, h1⟩, h2⟩ := h
      exact .ok ⟨a, b, t, rfl, hexNumber_two.2 ⟨h1, h2, rfl⟩⟩
    · rename_i h
      refine .err (.inr ⟨rfl, by simp, ?_⟩)
      rintro x y u ⟨⟩
      cases hn : hexNumber [a, b] with
      | none => rfl
      | some v =>
        obtain ⟨h1, h2, -⟩ := hexNumber_two.1 hn
        simp [h1, h2] at h
  · rename_i h
    refine .err (.inl ⟨rfl, ?_⟩)
    match s, h with
    | [], _ => simp
    | [_], _ => simp
    | [_, _], _ => simp
    | a :: b :: c :: t, h => exact absurd rfl (h a b c t)

/-- So many octets have been read of a character, the first of them `o`. -/
structure Octets (o : Nat) (os : Str) : Prop where
  trail : ∀ x ∈ os, 0x80 ≤ x ∧ x < 0xC0
  short : os.length < octetLen o

theorem validUtf8_lead {o : Byte} {v : Str} (h : validUtf8 (o :: v) = true) :
    ∃ os t, v = os ++ t ∧ os.length + 1 = octetLen o ∧ (∀ x ∈ os, 0x80 ≤ x ∧ x < 0xC0) ∧ validUtf8 t = true := by
  obtain ⟨l, hl⟩ := (validUtf8_iff _).1 h
  cases l with
  | nil => simp [utf8] at hl
  | cons c l =>
    have hu : utf8 (c :: l) = utf8Char c ++ utf8 l := by simp [utf8]
    obtain ⟨o', r, e1, e2, e3, -⟩ := octetLen_char c
    rw [hu, e1, List.cons_append] at hl
    obtain ⟨rfl, rfl⟩ := List.cons.inj hl
    exact ⟨r, utf8 l, rfl, e2.symm, e3, (validUtf8_iff _).2 ⟨l, rfl⟩⟩

/-- What is not UTF-8 after `u` is not UTF-8 with it. -/
def Through (u : Str) : Prop := ∀ v, validUtf8 (u ++ v) = true → validUtf8 v = true

theorem Through.append {u v : Str} (h : Through u) (h' : Through v) : Through (u ++ v) := by
  intro w hw
  rw [List.append_assoc] at hw
  exact h' _ (h _ hw)

theorem through_char {o : Byte} {os : Str} (h : os.length + 1 = octetLen o) : Through (o :: os) := by
  intro v hv
  rw [List.cons_append] at hv
  obtain ⟨os', t, h1, h2, -, h4⟩ := validUtf8_lead hv
  have := List.append_inj h1 (by omega)
  rw [this.2]; exact h4

theorem percentTrail_faults {verbatim : Bool} {o : Nat} {os w u s0 : Str} {n : Nat} (s : Str) (ho : ∀ x ∈ os, 0x80 ≤ x ∧ x < 0xC0)
    (hn : os.length + 1 + n = octetLen o) (hw : PercentDecode verbatim w (u ++ (o :: os))) (hu : Through u) (hs : s0 = w ++ s) :
    Faults opts (percentTrail opts n s) (fun os' => ∃ w', s0 = w' ++ s.drop (3 * os'.length) ∧ w'.length = w.length + 3 * os'.length ∧ PercentDecode verbatim w' (u ++ (o :: (os ++ os'))) ∧
      os.length + os'.length + 1 = octetLen o) (fun e => UriFault verbatim e s0) := by
  induction n generalizing os w s with
  | zero => exact .ok ⟨w, by simpa using hs, by simp, by simpa using hw, by simp; omega⟩
  | succ n ih =>
    rw [percentTrail]
    have hbad : ¬ ∃ l, u ++ o :: os = utf8 l := by
      rintro ⟨l, hl⟩
      have := hu (o :: os) (by rw [hl]; exact (validUtf8_iff _).2 ⟨l, rfl⟩)
      obtain ⟨os', t, h1, h2, -, -⟩ := validUtf8_lead this
      have := congrArg List.length h1
      simp at this
      omega
    refine .bind ((percentOctet_faults s).mono (fun _ h => h) ?_) ?_
    · rintro e (⟨rfl, h⟩ | ⟨rfl, h1, h2⟩)
      · rw [hs]; exact .ends hw (.inr ⟨h, .inr hbad⟩)
      · rw [hs]; exact .escape hw h1 (.inr hbad) h2
    · rintro o' ⟨x, y, t, rfl, hx⟩
      have hw' : PercentDecode verbatim (w ++ [b! '%', x, y]) (u ++ (o :: (os ++ [o']))) := by
        have := hw.append (.percent hx .nil)
        simpa using this
      split
      · rename_i h
        simp only [Bool.and_eq_true, decide_eq_true_eq] at h
        refine (ih (os := os ++ [o']) (w := w ++ [b! '%', x, y]) _ ?_ (by simp; omega) hw' (by simp [hs])).bind ?_
        · intro z hz
          rcases List.mem_append.1 hz with hz | hz
          · exact ho z hz
          · simp only [List.mem_cons, List.not_mem_nil, or_false] at hz
            subst hz; exact h
        · rintro os' ⟨w', h1, h1', h2, h3⟩
          refine .ok ⟨w', ?_, ?_, by simpa using h2, ?_⟩
          · rw [h1, List.drop_drop]
            congr 2
            simp; omega
          · rw [h1']; simp; omega
          · simp at h3 ⊢; omega
      · rename_i h
        simp only [Bool.and_eq_true, decide_eq_true_eq] at h
        refine .err ?_
        have : s0 = (w ++ [b! '%', x, y]) ++ t := by simp [hs]
        rw [this]
        refine .bytes hw' ?_
        intro v l hl
        have hv := hu (o :: (os ++ [o']) ++ v) (by rw [← List.append_assoc, hl]; exact (validUtf8_iff _).2 ⟨l, rfl⟩)
        rw [List.cons_append] at hv
        obtain ⟨os', t', h1, h2, h3, -⟩ := validUtf8_lead hv
        -- the octet is one of those
        have hlen : os.length < os'.length := by omega
        have h4 : os ++ (o' :: v) = os' ++ t' := by simpa using h1
        have h5 := congrArg (List.take os'.length) h4
        rw [List.take_left' rfl, List.take_append, List.take_of_length_le (by omega)] at h5
        have h6 : os'.length - os.length = (os'.length - os.length - 1) + 1 := by omega
        rw [h6, List.take_succ_cons] at h5
        exact h (h3 o' (by rw [← h5]; simp))

theorem tagUriUnescape_faults {verbatim : Bool} {w u s0 : Str} (t : Str) (hw : PercentDecode verbatim w u) (hu : Through u) (hs : s0 = w ++ b! '%' :: t) :
    Faults opts (tagUriUnescape opts (b! '%' :: t)) (fun os => ∃ w', s0 = w' ++ (b! '%' :: t).drop (3 * os.length) ∧ PercentDecode verbatim w' (u ++ os) ∧
      Through (u ++ os)) (fun e => UriFault verbatim e s0) := by
  unfold tagUriUnescape
  refine .bind ((percentOctet_faults _).mono (fun _ h => h) ?_) ?_
  · rintro e (⟨rfl, h⟩ | ⟨rfl, h1, h2⟩)
    · rw [hs]; exact .ends hw (.inr ⟨h, .inl ⟨_, rfl⟩⟩)
    · rw [hs]; exact .escape hw h1 (.inl ⟨_, rfl⟩) h2
  · rintro o ⟨x, y, t', ht, hx⟩
    obtain ⟨-, rfl⟩ := List.cons.inj ht
    have hw' : PercentDecode verbatim (w ++ [b! '%', x, y]) (u ++ [o]) := hw.append (.percent hx .nil)
    split
    · rename_i h0
      have : s0 = (w ++ [b! '%', x, y]) ++ t' := by simp [hs]
      rw [this]
      refine .err (.bytes hw' ?_)
      intro v l hl
      have hv := hu ([o] ++ v) (by rw [← List.append_assoc, hl]; exact (validUtf8_iff _).2 ⟨l, rfl⟩)
      obtain ⟨os, t, -, h2, -, -⟩ := validUtf8_lead hv
      omega
    · rename_i h0
      refine (percentTrail_faults (n := octetLen o - 1) (os := []) (w := w ++ [b! '%', x, y]) (s0 := s0) _ (by simp) (by simp; omega) hw' hu ?_).bind ?_
      · simp [hs]
      · rintro os ⟨w', h1, -, h2, h3⟩
        simp only [List.length_nil, List.nil_append] at h2 h3
        refine .ok ⟨w', ?_, h2, hu.append (through_char (by omega))⟩
        rw [h1, List.drop_drop]
        congr 2
        simp; omega

theorem through_ascii {b : Byte} (h : b < 128) : Through [b] :=
  through_char (by simp [octetLen, h])

theorem scanUriLoop_faults {verbatim : Bool} {base s0 : Str} {fuel : Nat} {st : UriSt} {w u : Str} (hw : PercentDecode verbatim w u) (hu : Through u)
    (hs : s0 = w ++ st.cur.buf) : Faults opts (scanUriLoop opts verbatim base fuel st)
      (fun st' => ∃ w u, s0 = w ++ st'.cur.buf ∧ PercentDecode verbatim w u ∧ UriEnds verbatim st'.cur.buf) (fun e => UriFault verbatim e s0) := by
  induction fuel generalizing st w u with
  | zero => exact .diverge
  | succ fuel ih =>
    rw [scanUriLoop]
    refine (cache_faults _ _).bind fun _ _ => ?_
    split
    · rename_i hb
      refine .err ?_
      rw [hs, hb]
      exact .ends hw (.inl rfl)
    · rename_i b t hb
      split
      · rename_i h
        have hp : uriPlain verbatim b = true := by simpa [uriPlain] using h
        unfold UriSt.push
        refine Faults.bind (Q := fun st' => st'.cur.buf = t) ?_ ?_
        · refine adv_faults.bind ?_
          rintro _ rfl
          exact .ok (by simp [hb])
        · intro st' h'
          refine ih (hw.append (.byte (uriPlain_iff.1 hp) .nil)) (hu.append (through_ascii (uriPlain_ascii hp))) ?_
          simp [h', hs, hb]
      · rename_i h
        split
        · rename_i hpc
          subst hpc
          unfold UriSt.percent
          refine Faults.bind (Q := fun st' => ∃ w u, s0 = w ++ st'.cur.buf ∧ PercentDecode verbatim w u ∧ Through u) ?_ ?_
          · rw [hb]
            refine (tagUriUnescape_faults t hw hu (by rw [hs, hb])).bind ?_
            rintro os ⟨w', h1, h2, h3⟩
            refine adv_faults.bind ?_
            rintro _ rfl
            exact .ok ⟨w', _, by rw [hb]; exact h1, h2, h3⟩
          · rintro st' ⟨w', u', h1, h2, h3⟩
            exact ih h2 h3 h1
        · rename_i hpc
          refine .ok ⟨w, u, hs, hw, b, t, hb, ?_, hpc⟩
          rw [← uriPlain_iff]
          simpa [uriPlain] using h

theorem scanTagUri_faults {verbatim : Bool} (c : Cur) : Faults opts (scanTagUri opts verbatim c)
    (fun r => ∃ w u, c.buf = w ++ r.2.buf ∧ PercentDecode verbatim w u ∧ UriEnds verbatim r.2.buf) (fun e => UriFault verbatim e c.buf) := by
  unfold scanTagUri
  refine (scanUriLoop_faults (st := { cur := c }) .nil (fun _ h => h) rfl).bind ?_
  intro st h
  split
  · exact slice_faults.bind fun _ _ => .ok h
  · exact utf8_faults.bind fun _ _ => .ok h

theorem scanTagHandle_faults (c : Cur) : Faults opts (scanTagHandle opts c)
    (fun r => (∃ h n, r.1 = some (h, n) ∧ ∃ hd s, c.buf = hd ++ s ∧ n = hd.length ∧ HandleAt hd s ∧ (hd = [b! '!'] → White s) ∧
        ((∃ x, h = .Primary x) → hd = [b! '!'])) ∨
      r.1 = none ∧ ∃ name x t, c.buf = b! '!' :: (name ++ x :: t) ∧ (∀ b ∈ name, IsAlnum b) ∧ ¬ IsAlnum x ∧ x ≠ b! '!' ∧ (name ≠ [] ∨ ¬ White (x :: t)))
    (fun e => e = .UnexpectedEOF ∧ (c.buf = [] ∨ ∃ name, c.buf = b! '!' :: name ∧ ∀ b ∈ name, IsAlnum b) ∨
      e = .InvalidTagHandle ∧ ∃ x t, c.buf = x :: t ∧ x ≠ b! '!') := by
  unfold scanTagHandle
  refine (cache_faults _ _).bind fun _ _ => ?_
  split
  · rename_i hb
    exact .err (.inl ⟨rfl, .inl hb⟩)
  · rename_i b t hb
    split
    · rename_i hne
      exact .err (.inr ⟨rfl, b, t, hb, hne⟩)
    · rename_i hne
      have : b = b! '!' := by simpa using hne
      subst this
      refine (takeWhile_faults t).bind ?_
      rintro _ ⟨p, r, rfl, rfl, h1, h2⟩
      have h1' : ∀ b ∈ p, IsAlnum b := fun x hx => isAlnum_iff.1 (h1 x hx)
      have hdrop : c.buf.drop (1 + p.length) = r := by
        rw [hb, Nat.add_comm]; simp
      refine (cache_faults _ _).bind fun _ _ => ?_
      rw [hdrop]
      cases r with
      | nil => exact .err (.inl ⟨rfl, .inr ⟨p, by rw [hb, List.append_nil], h1'⟩⟩)
      | cons d r =>
        have hd := h2 d r rfl
        simp only
        split
        · rename_i hd'
          subst hd'
          refine .ok (.inl ⟨_, _, rfl, b! '!' :: (p ++ [b! '!']), r, by simp [hb], by simp; omega, .named h1', ?_, ?_⟩)
          · intro h; simp at h
          · rintro ⟨x, hx⟩
            split at hx <;> cases hx
        · rename_i hd'
          split
          · rename_i h
            simp only [Bool.and_eq_true, decide_eq_true_eq] at h
            obtain ⟨h0, hw⟩ := h
            have := List.length_eq_zero_iff.1 h0
            subst this
            refine .ok (.inl ⟨_, _, rfl, [b! '!'], d :: r, by simp [hb], rfl, .primary ?_, fun _ => ?_, fun _ => rfl⟩)
            · intro name t hn he
              cases name with
              | nil => simp at he; exact hd' he.1
              | cons y name =>
                simp at he
                have := hn y (by simp)
                rw [← isAlnum_iff, ← he.1, hd] at this
                cases this
            · have := isWhiteSpaceZ_iff.1 (show isWhiteSpaceZ (d :: r) = true by
                unfold isWhiteSpaceZ; unfold isWhiteSpace at hw; rw [hw]; rfl)
              exact this.resolve_left (by simp)
          · rename_i h
            refine .ok (.inr ⟨rfl, p, d, r, hb, h1', by rw [← isAlnum_iff, hd]; simp, hd', ?_⟩)
            simp only [Bool.and_eq_true, decide_eq_true_eq, not_and, Bool.not_eq_true] at h
            by_cases hp : p = []
            · right
              exact Blocks.not_white (h (by simp [hp]))
            · exact .inl hp

theorem handle_primary {name t : Str} {x : Byte} (hn : ∀ b ∈ name, IsAlnum b) (hx : ¬ IsAlnum x) (hx' : x ≠ b! '!') :
    HandleAt [b! '!'] (name ++ x :: t) := by
  refine .primary ?_
  intro n u hn' he
  have hm : ¬ IsAlnum (b! '!') := by rw [← isAlnum_iff]; decide
  have := Blocks.span_unique (P := IsAlnum) he hn hn' (by rintro b t ⟨⟩; exact hx) (by rintro b t ⟨⟩; exact hm)
  exact hx' (List.cons.inj this.2).1

theorem decode_names {t : Str} (hn : ∀ b ∈ t, IsAlnum b) : PercentDecode false t t := by
  induction t with
  | nil => exact .nil
  | cons b t ih => exact .byte (.inl (hn b (by simp))) (ih fun x hx => hn x (by simp [hx]))

theorem scanNodeTag_faults (t : Str) {m : MStats} : Faults opts (scanNodeTag opts ⟨b! '!' :: t, m⟩) (fun _ => True) (fun e => TagFault e (b! '!' :: t)) := by
  unfold scanNodeTag
  refine (cache_faults _ _).bind fun _ _ => ?_
  split
  · rename_i h
    obtain ⟨s, hs⟩ := List.isPrefixOf_iff_prefix.1 h
    have hs' : t = b! '<' :: s := by simpa using hs.symm
    subst hs'
    unfold scanVerbatim
    refine skip_faults.bind ?_
    rintro _ rfl
    simp only [List.drop_succ_cons, List.drop_zero]
    refine .bind ((scanTagUri_faults _).mono (fun _ h => h) fun e he => .verbatim he) ?_
    rintro ⟨v, r⟩ ⟨w, u, h1, h2, h3⟩
    simp only at h1 h3
    refine (cache_faults _ _).bind fun _ _ => ?_
    refine Faults.bind (Q := fun _ => True) ?_ fun _ _ => skip_faults.bind fun _ _ => .ok trivial
    obtain ⟨b, q, hb, -⟩ := id h3
    rw [hb] at h3 h1 ⊢
    simp only [List.drop_succ_cons, List.drop_zero]
    have h0 : b! '!' :: b! '<' :: s = bytes! "!<" ++ s := rfl
    cases q with
    | nil =>
      refine .err ?_
      rw [h0, h1]
      exact .verbatimEnds h2 h3
    | cons x q =>
      simp only [requireClose]
      split
      · exact .ok trivial
      · rename_i hx
        refine .err ?_
        rw [h0, h1]
        exact .verbatimClose h2 h3 hx
  · rename_i hv
    have hv : ∀ u, b! '!' :: t ≠ bytes! "!<" ++ u := by
      intro u hu
      apply hv
      rw [show (⟨b! '!' :: t, m⟩ : Cur).buf = b! '!' :: t from rfl, hu]
      exact List.isPrefixOf_iff_prefix.2 ⟨u, rfl⟩
    -- the handle
    refine .bind ((scanTagHandle_faults _).mono (fun _ h => h) ?_) ?_
    · rintro e (⟨rfl, h⟩ | ⟨-, x, u, h1, h2⟩)
      · rcases h with h | ⟨name, h, hn⟩
        · cases h
        · obtain ⟨-, rfl⟩ := List.cons.inj h
          refine TagFault.suffix (h := [b! '!']) (s := t) (.primary ?_) hv ?_
          · rintro n u hn' rfl
            have := hn (b! '!') (by simp)
            rw [← isAlnum_iff] at this
            revert this; decide
          · have := UriFault.ends (verbatim := false) (decode_names hn) (.inl rfl)
            simpa using this
      · obtain ⟨rfl, -⟩ := List.cons.inj h1
        exact absurd rfl h2
    · rintro ⟨r, stats⟩ (⟨h, n, h0, hd, s, h1, rfl, h2, h3, h4⟩ | ⟨h0, name, x, u, h1, h2, h3, h4, h5⟩)
      · simp only at h0 h1
        subst h0
        have go : ∀ c : Cur, c.buf = s → Faults opts (do
            let (suffix, c) ← scanTagUri opts false c
            .ok (Token.Tag h.inner suffix, c)) (fun _ => True) (fun e => TagFault e (b! '!' :: t)) := by
          intro c hc
          refine .bind ((scanTagUri_faults _).mono (fun _ h => h) fun e he => ?_) fun _ _ => .ok trivial
          rw [hc] at he
          rw [h1]
          exact .suffix h2 (fun u hu => hv u (by rw [← hu, ← h1])) he
        cases h with
        | Primary x =>
          refine skip_faults.bind fun _ _ => .ok trivial
        | Secondary x =>
          refine skip_faults.bind ?_
          rintro _ rfl
          exact go _ (by simp [h1])
        | Named x =>
          refine skip_faults.bind ?_
          rintro _ rfl
          exact go _ (by simp [h1])
      · simp only at h0 h1
        subst h0
        refine (cache_faults _ _).bind fun _ _ => adv_faults.bind ?_
        rintro _ rfl
        simp only [List.drop_succ_cons, List.drop_zero]
        obtain ⟨-, rfl⟩ := List.cons.inj h1
        refine .bind ((scanTagUri_faults _).mono (fun _ h => h) fun e he => ?_) fun _ _ => .ok trivial
        exact TagFault.suffix (h := [b! '!']) (handle_primary h2 h3 h4) hv he

/-! ### Directives -/

theorem versionNumber_faults (c : Cur) : Faults opts (scanVersionNumber opts c)
    (fun r => ∃ d, c.buf = d ++ r.2.buf ∧ VersionNumber d ∧ NoDigit r.2.buf)
    (fun e => e = .InvalidVersion ∧ ∃ d r, c.buf = d ++ r ∧ (∀ b ∈ d, IsDigit b) ∧ NoDigit r ∧ ¬ VersionNumber d) := by
  unfold scanVersionNumber
  refine (takeWhile_faults _).bind ?_
  rintro _ ⟨p, r, h0, rfl, h1, h2⟩
  have h1 : ∀ b ∈ p, IsDigit b := fun x hx => isDigit_iff.1 (h1 x hx)
  have h2 : NoDigit r := fun x t h => by rw [← isDigit_iff, h2 x t h]; simp
  rw [h0, List.take_left' rfl, atoiU8_eq]
  split
  · rename_i h
    refine .err ⟨rfl, p, r, rfl, h1, h2, ?_⟩
    rintro ⟨-, h3, h4⟩
    rw [if_pos ⟨h3, by omega⟩] at h
    cases h
  · rename_i v h
    refine adv_faults.bind ?_
    rintro _ rfl
    by_cases h3 : p ≠ [] ∧ decimal p < 256
    · exact .ok ⟨p, by simp [h0], ⟨h1, h3.1, by omega⟩, by simpa [h0] using h2⟩
    · rw [if_neg h3] at h; cases h

theorem scanTagDirective_faults (s : Str) {c : Cur} {n : Nat} (hs : Skips false s n c.buf) :
    Faults opts (scanTagDirective opts c) (fun _ => True) (fun e => DirectiveFault e (bytes! "%TAG" ++ s)) := by
  unfold scanTagDirective
  refine .bind ((scanTagHandle_faults c).mono (fun _ h => h) ?_) ?_
  · rintro e (⟨rfl, h⟩ | ⟨rfl, x, t, h1, h2⟩)
    · exact .handleEnds hs h
    · rw [h1] at hs; exact .handle hs h2
  · rintro ⟨r, stats⟩ (⟨h, n, h0, hd, s', h1, rfl, h2, h3, -⟩ | ⟨h0, name, x, u, h1, h2, h3, h4, h5⟩)
    · simp only at h0
      subst h0
      simp only
      rw [h1] at hs
      refine skip_faults.bind ?_
      rintro _ rfl
      have hdrop : c.buf.drop hd.length = s' := by rw [h1]; simp
      simp only [hdrop]
      refine (cache_faults _ _).bind fun _ _ => ?_
      refine Faults.bind (Q := fun _ => ∃ t, s' = 0x20 :: t ∨ s' = 0x09 :: t) ?_ ?_
      · cases s' with
        | nil =>
          rw [List.append_nil] at hs
          exact .err (.blankEnds hs h2)
        | cons x t =>
          simp only [requireBlank]
          split
          · rename_i hb
            obtain ⟨b, t', h, hb⟩ := Blocks.blank_cases hb
            obtain ⟨rfl, rfl⟩ := List.cons.inj h
            exact .ok (hb.elim (fun h => ⟨_, .inl (by rw [h])⟩) fun h => ⟨_, .inr (by rw [h])⟩)
          · rename_i hb
            refine .err (.blank hs h2 h3 ⟨?_, ?_⟩) <;> rintro rfl <;> simp [isBlank, startsWith] at hb
      · intro _ hb
        refine eatWs_faults.bind ?_
        rintro c' ⟨n', hs'⟩
        simp only at hs'
        refine .bind ((scanTagUri_faults c').mono (fun _ h => h) fun e he => .uri hs h2 hb hs' he) ?_
        rintro ⟨v, c2⟩ ⟨w, u, g1, g2, g3⟩
        simp only at g1 g3
        refine Faults.bind (Q := fun _ => True) ?_ fun _ _ => .ok trivial
        obtain ⟨x, t, hx, -⟩ := id g3
        simp only [hx, requireWhiteSpace]
        split
        · exact .ok trivial
        · rename_i hw
          refine .err (.prefix hs h2 hb (by rw [← g1]; exact hs') g2 g3 ?_)
          rw [hx]
          exact Blocks.not_white (by simpa using hw)
    · simp only at h0
      subst h0
      simp only
      rw [h1] at hs
      exact .err (.handleOpen hs h2 h3 h4 h5)

theorem directive_faults (s : Str) {m : MStats} :
    Faults opts (Scan.directiveToken opts ⟨b! '%' :: s, m⟩) (fun _ => True) (fun e => DirectiveFault e (b! '%' :: s)) := by
  unfold Scan.directiveToken
  refine (cache_faults _ _).bind fun _ _ => ?_
  simp only [List.drop_succ_cons, List.drop_zero]
  refine Faults.bind (Q := fun k => (k = .Version ∧ ∃ t, s = bytes! "YAML" ++ t) ∨ (k = .Tag ∧ ∃ t, s = bytes! "TAG" ++ t)) ?_ ?_
  · unfold DirectiveKind.new
    split
    · rename_i h
      obtain ⟨t, h⟩ := List.isPrefixOf_iff_prefix.1 h
      exact .ok (.inl ⟨rfl, t, h.symm⟩)
    · rename_i h1
      split
      · rename_i h
        obtain ⟨t, h⟩ := List.isPrefixOf_iff_prefix.1 h
        exact .ok (.inr ⟨rfl, t, h.symm⟩)
      · rename_i h2
        refine .err (.unknown ?_ ?_)
        · exact fun t h => h1 (List.isPrefixOf_iff_prefix.2 ⟨t, h.symm⟩)
        · exact fun t h => h2 (List.isPrefixOf_iff_prefix.2 ⟨t, h.symm⟩)
  · rintro k (⟨rfl, t, rfl⟩ | ⟨rfl, t, rfl⟩)
    · refine adv_faults.bind ?_
      rintro _ rfl
      have e0 : b! '%' :: (bytes! "YAML" ++ t) = bytes! "%YAML" ++ t := rfl
      have e1 : (b! '%' :: (bytes! "YAML" ++ t)).drop (1 + DirectiveKind.Version.len) = t := rfl
      rw [e0] at e1 ⊢
      simp only [scanDirective, e1]
      refine eatWs_faults.bind ?_
      rintro c ⟨n, hs⟩
      simp only at hs
      refine .bind ((versionNumber_faults c).mono (fun _ h => h) ?_) ?_
      · rintro e ⟨rfl, d, r, h1, h2, h3, h4⟩
        rw [h1] at hs
        exact .major hs h2 h3 h4
      rintro ⟨major, c1⟩ ⟨d, h1, h2, h3⟩
      simp only at h1 h3
      refine (cache_faults _ _).bind fun _ _ => ?_
      refine Faults.bind (Q := fun _ => ∃ t, c1.buf = b! '.' :: t) ?_ ?_
      · cases hb : c1.buf with
        | nil =>
          rw [h1, hb, List.append_nil] at hs
          exact .err (.versionEnds hs h2)
        | cons x u =>
          simp only [requireDot]
          split
          · rename_i hx
            exact .ok ⟨u, by rw [hx]⟩
          · rename_i hx
            rw [h1, hb] at hs
            exact .err (.dot hs h2 (h3 x u hb) hx)
      · rintro _ ⟨u, hu⟩
        refine adv_faults.bind ?_
        rintro _ rfl
        simp only [hu, List.drop_succ_cons, List.drop_zero]
        refine .bind ((versionNumber_faults _).mono (fun _ h => h) ?_) fun _ _ => .ok trivial
        rintro e ⟨rfl, d', r, g1, g2, g3, g4⟩
        simp only at g1
        rw [h1, hu, g1] at hs
        exact .minor hs h2 g2 g3 g4
    · refine adv_faults.bind ?_
      rintro _ rfl
      have e0 : b! '%' :: (bytes! "TAG" ++ t) = bytes! "%TAG" ++ t := rfl
      have e1 : (b! '%' :: (bytes! "TAG" ++ t)).drop (1 + DirectiveKind.Tag.len) = t := rfl
      rw [e0] at e1 ⊢
      simp only [scanDirective, e1]
      refine eatWs_faults.bind ?_
      rintro c ⟨n, hs⟩
      exact scanTagDirective_faults t hs

end Yary
