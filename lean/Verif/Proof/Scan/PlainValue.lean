import Verif.Proof.Scan.PlainText

/-! # Plain scalars: the value -/

namespace Yary

open Spec

variable {opts : SFlags} {block : Bool} {indent : Nat}

/-- A byte that white space between words is made of. -/
def Filler (b : Byte) : Prop := b = 0x20 ∨ b = 0x09 ∨ b = 0x0A

theorem skips_zero_fill {u t : Str} (h : Skips false u 0 t) : ∃ p, u = p ++ t ∧ ∀ b ∈ p, Filler b := by
  generalize hz : (0 : Nat) = z at h
  induction h with
  | done => exact ⟨[], rfl, by simp⟩
  | @blank b t r n hb h ih =>
    obtain ⟨p, rfl, hp⟩ := ih hz
    refine ⟨b :: p, rfl, ?_⟩
    intro x hx
    rcases List.mem_cons.1 hx with rfl | hx
    · exact hb.elim .inl fun h => .inr (.inl h)
    · exact hp x hx
  | line => cases hz
  | comment hc => cases hc

theorem between_fill {n : Nat} {p t : Str} (h : Skips false (p ++ t) n t) : ∀ b ∈ plainBetween n p, Filler b := by
  unfold plainBetween
  split
  · rename_i hn
    subst hn
    obtain ⟨q, hq, hf⟩ := skips_zero_fill h
    rw [List.append_cancel_right hq]
    exact hf
  · unfold folded
    intro b hb
    split at hb
    · simp only [List.mem_singleton] at hb
      exact .inl hb
    · exact .inr (.inr (List.mem_replicate.1 hb).2)

theorem Spec.PlainWord.between {w p t : Str} {n : Nat} (hw : PlainWord block w (p ++ t)) (ht : ¬ PlainStops block t) :
    plainBetween n p ≠ [] := by
  unfold plainBetween
  split
  · rintro rfl
    exact ht hw.2.2
  · unfold folded
    split
    · simp
    · rename_i h1 h2
      intro h
      have := congrArg List.length h
      simp at this
      omega

/-- The value begins with a word and ends with a word. -/
theorem Spec.PlainText.ends {m : MStats} {s v r : Str} (h : PlainText block indent m s v r) :
    (∃ w u x, PlainWord block w u ∧ v = w ++ x ∧ ∀ b y, x = b :: y → Filler b) ∧
    ∃ w y, PlainWord block w r ∧ v = y ++ w ∧ ∀ z b, y = z ++ [b] → Filler b := by
  induction h with
  | @last m w p t n hw hs hn =>
    refine ⟨⟨w, p ++ t, [], hw, by simp, fun b y h => by cases h⟩, w, [], hw, rfl, fun z b h => ?_⟩
    have := congrArg List.length h
    simp at this
  | @more m w p t v r n hw hs hg h ih =>
    have hb := hw.between (n := n) hg.2.2.2
    have hf := between_fill hs
    obtain ⟨-, w', y, hw', hv, hy⟩ := ih
    refine ⟨⟨w, _, plainBetween n p ++ v, hw, rfl, ?_⟩, w', w ++ (plainBetween n p ++ y), hw', by simp [hv], ?_⟩
    · intro b z hz
      cases hq : plainBetween n p with
      | nil => exact absurd hq hb
      | cons c q =>
        rw [hq] at hz hf
        cases hz
        exact hf b (by simp)
    · intro z b hz
      by_cases h0 : y = []
      · subst h0
        rw [List.append_nil] at hz
        have h1 : (w ++ plainBetween n p).getLast? = some b := by rw [hz]; simp
        rw [List.getLast?_append] at h1
        cases hq : (plainBetween n p).getLast? with
        | none => exact absurd (List.getLast?_eq_none_iff.1 hq) hb
        | some c =>
          rw [hq] at h1
          simp at h1
          subst h1
          exact hf c (List.mem_of_getLast? hq)
      · obtain ⟨y', c, rfl⟩ : ∃ y' c, y = y' ++ [c] := ⟨y.dropLast, y.getLast h0, (List.dropLast_concat_getLast h0).symm⟩
        have h1 : c = b := by
          have := congrArg List.getLast? hz
          simpa using this
        subst h1
        exact hy y' c rfl

/-- White space of one character. -/
theorem white_of_one {w t : Str} (h : w = [0x20] ∨ w = [0x09] ∨ w ∈ lineBreaks) : White (w ++ t) := by
  rcases h with rfl | rfl | h
  · exact .inl ⟨t, .inl rfl⟩
  · exact .inl ⟨t, .inr rfl⟩
  · exact .inr ⟨w, h, t, rfl⟩

/-- The value does not begin with white space. -/
theorem Spec.PlainText.starts {m : MStats} {s v r w : Str} (h : PlainText block indent m s v r)
    (hw : w = [0x20] ∨ w = [0x09] ∨ w ∈ lineBreaks) : ¬ w <+: v := by
  rintro ⟨x, hx⟩
  obtain ⟨⟨w1, u, y, h1, hv, hy⟩, -⟩ := h.ends
  rw [hv] at hx
  have hns : ¬ White (w1 ++ u) := fun hh => h1.2.1 [] w1 rfl h1.1 (.inr (.inl hh))
  rcases List.append_eq_append_iff.1 hx with ⟨a, ha, hb⟩ | ⟨a, ha, hb⟩
  · rw [ha, List.append_assoc] at hns
    exact hns (white_of_one hw)
  · cases a with
    | nil =>
      rw [List.append_nil] at ha
      rw [← ha] at hns
      exact hns (white_of_one hw)
    | cons b a =>
      have hfb := hy b (a ++ x) (by rw [hb]; rfl)
      cases w1 with
      | nil => exact h1.1 rfl
      | cons c w1 =>
        have key : ∀ c' l, w = c' :: l → b ∈ l → (c' = 0x0D ∨ ¬ Filler b) := by
          intro c' l hl hbl
          rcases hw with rfl | rfl | hw
          · cases hl; cases hbl
          · cases hl; cases hbl
          · simp only [lineBreaks, List.mem_cons, List.not_mem_nil, or_false] at hw
            rcases hw with rfl | rfl | rfl | rfl | rfl | rfl <;> cases hl
            · exact .inl rfl
            · exact .inl rfl
            · cases hbl
            all_goals
              right
              simp only [List.mem_cons, List.not_mem_nil, or_false] at hbl
              unfold Filler
              rcases hbl with rfl | rfl <;> decide
        rcases key c (w1 ++ b :: a) ha (by simp) with rfl | hh
        · exact hns (.inr ⟨[0x0D], by decide, w1 ++ u, rfl⟩)
        · exact hh hfb

/-- The value does not end with white space. -/
theorem Spec.PlainText.stops {m : MStats} {s v r w : Str} (h : PlainText block indent m s v r)
    (hw : w = [0x20] ∨ w = [0x09] ∨ w ∈ lineBreaks) : ¬ w <:+ v := by
  rintro ⟨x, hx⟩
  obtain ⟨-, w1, y, h1, hv, hy⟩ := h.ends
  rw [hv] at hx
  have hwne : w ≠ [] := by
    rintro rfl
    rcases hw with hw | hw | hw
    · cases hw
    · cases hw
    · exact absurd hw (by decide)
  rcases List.append_eq_append_iff.1 hx with ⟨a, ha, hb⟩ | ⟨a, ha, hb⟩
  · by_cases h0 : a = []
    · subst h0
      rw [List.nil_append] at hb
      refine h1.2.1 [] w1 rfl h1.1 (.inr (.inl ?_))
      rw [← hb]
      exact white_of_one hw
    · obtain ⟨a', b, rfl⟩ : ∃ a' b, a = a' ++ [b] := ⟨a.dropLast, a.getLast h0, (List.dropLast_concat_getLast h0).symm⟩
      have hfb := hy (x ++ a') b (by rw [ha, List.append_assoc])
      cases w1 with
      | nil => exact h1.1 rfl
      | cons c w1 =>
        rw [List.append_assoc, List.singleton_append] at hb
        have key : b ∈ w.dropLast := by
          rw [hb]
          have : (a' ++ b :: c :: w1).dropLast = a' ++ (b :: (c :: w1).dropLast) := by
            rw [List.dropLast_append_of_ne_nil (by simp)]
            rfl
          rw [this]
          simp
        unfold Filler at hfb
        rcases hw with hw | hw | hw
        · rw [hw] at key; cases key
        · rw [hw] at key; cases key
        · simp only [lineBreaks, List.mem_cons, List.not_mem_nil, or_false] at hw
          rcases hw with hw | hw | hw | hw | hw | hw <;> rw [hw] at key <;>
            simp only [List.dropLast, List.mem_cons, List.not_mem_nil, or_false] at key
          all_goals
            rcases hfb with rfl | rfl | rfl <;> revert key <;> decide
  · refine h1.2.1 a w hb hwne (.inr (.inl (white_of_one hw)))

theorem Spec.PlainText.suffix {m : MStats} {s v r : Str} (h : PlainText block indent m s v r) : ∃ q, s = q ++ r := by
  induction h with
  | @last m w p t n => exact ⟨w, rfl⟩
  | @more m w p t v r n hw hs hg h ih =>
    obtain ⟨q', hq'⟩ := ih
    exact ⟨w ++ (p ++ q'), by rw [hq']; simp⟩

theorem skips_break {z t : Str} {n : Nat} (h : Skips false z n t) : n = 0 ∨ ∃ a c, z = a ++ (c ++ t) ∧ c ≠ [] ∧ AtBreak (c ++ t) := by
  induction h with
  | done => exact .inl rfl
  | @blank b t r n hb h ih =>
    rcases ih with h0 | ⟨a, c, h1, h2, h3⟩
    · exact .inl h0
    · exact .inr ⟨b :: a, c, by rw [h1]; rfl, h2, h3⟩
  | @line w t r n hw h ih =>
    have hb := before_at hw
    obtain ⟨p, rfl⟩ := h.suffix
    refine .inr ⟨[], w ++ p, by simp, ?_, by simpa using hb⟩
    obtain ⟨b, u, rfl, -⟩ := before_head hw
    simp
  | comment hc => cases hc

/-- Without a line break in it, a plain scalar is its text. -/
theorem Spec.PlainText.line {m : MStats} {s v r q : Str} (h : PlainText block indent m s v r) (hq : s = q ++ r)
    (hn : ∀ a b, q = a ++ b → b ≠ [] → ¬ AtBreak (b ++ r)) : q = v := by
  induction h generalizing q with
  | @last m w p t n hw hs hg => exact (List.append_cancel_right hq).symm
  | @more m w p t v r n hw hs hg h ih =>
    obtain ⟨q', rfl⟩ := h.suffix
    have e : q = w ++ (p ++ q') := by
      have : w ++ (p ++ (q' ++ r)) = (w ++ (p ++ q')) ++ r := by simp
      rw [this] at hq
      exact (List.append_cancel_right hq).symm
    have hq0 : q' = v := ih rfl fun a b hab hb => hn (w ++ (p ++ a)) b (by rw [e, hab]; simp) hb
    have hn0 : n = 0 := by
      rcases skips_break hs with h0 | ⟨a, c, h1, h2, h3⟩
      · exact h0
      · exfalso
        have hp : p = a ++ c := by
          rw [← List.append_assoc a] at h1
          exact List.append_cancel_right h1
        refine hn (w ++ a) (c ++ q') (by rw [e, hp]; simp) (by simp [h2]) ?_
        rw [List.append_assoc]
        exact h3
    subst hn0
    rw [e, hq0]
    simp [plainBetween]

/-- A step that pushes a plain scalar. -/
theorem step_plain {s s' : SS} (hB : Before s) (hs : Scan.scanNextToken opts s = (.ok (), s')) {e : TokenEntry} {v : Str}
    (he : e ∈ pushedBy s s') (ht : e.wrap = .Token (.Scalar v .Plain)) :
    ∃ n p text, Skips true s.buf n text ∧ s.buf = p ++ text ∧
      PlainText s'.sc.context.isBlock (levelSucc s'.sc.context.level) (posAfter s.sc.stats p) text v s'.buf := by
  obtain ⟨n, s1, c, h1, -, h2, h3, -, ⟨p, h4, h5⟩, h6⟩ := step_scans hB hs he
    (by rintro ⟨g, -⟩; rw [ht] at g; simp [isNode, MaybeToken.marker, Marker.ofToken] at g)
  have hcx : s'.sc.context = s1.sc.context := by
    rcases h6 with h6 | ⟨t, u, h6, h7, h8⟩
    · exact h6
    · exfalso
      rw [ht] at h6
      cases h6
      rw [h7] at h8
      have h9 := directiveToken_par _ h8
      generalize b! '%' :: u = z at h9
      cases h9
  rw [ht] at h2
  rw [hcx, h3]
  refine ⟨n, p, s1.buf, h1, h4, ?_⟩
  rw [← h5]
  rcases h2.means with ⟨t, h1, h2⟩ | ⟨t, h1, h2⟩ | ⟨w, x, u, rest, h1, h2⟩ | ⟨t, h1, h2⟩ | ⟨single', t, h1, h2⟩ | ⟨h1, h2⟩ | ⟨fold, t, h1, hb, h2⟩
  · cases h1; generalize s1.buf = z at h2; cases h2
  · cases h1; generalize s1.buf = z at h2; cases h2
  · cases h1
  · cases h1; generalize s1.buf = z at h2; cases h2
  · rw [h1] at h2
    rcases scanFlow_style (quoteMark_noBrk (single := single')).isBreak h2 with ⟨-, v, h, -⟩ | ⟨-, l, h⟩
    · cases single' <;> cases h
    · cases h
  · rcases scanPlain_style h1 h2 with ⟨-, v', h, h'⟩ | ⟨-, l, h⟩
    · cases h
      obtain ⟨_, e, h⟩ := scanPlainEager_par h1 _ h'
      cases e
      exact h
    · cases h
  · have hnb : NoBrk (if fold then b! '>' else b! '|') := by cases fold <;> decide
    rcases scanBlock_style (by rw [h1]; simp) (by rw [h1]; exact hnb.isBreak) h2 with ⟨-, v, h, -⟩ | ⟨-, l, h⟩
    · cases fold <;> cases h
    · cases h

theorem PlainFirst.blank {b : Byte} {t : Str} (h : 0x20 < b ∧ b < 0x7F) : isWhiteSpaceZ (b :: t) = false := by
  have h1 : isBlank (b :: t) = false := not_blank.2 ⟨fun u e => by cases e; exact absurd h.1 (by decide), fun u e => by cases e; exact absurd h.1 (by decide)⟩
  have h2 : NoBrk b := by unfold NoBrk; byte_omega
  simp [isWhiteSpaceZ, h1, h2.isBreak]

/-- Such a text is dispatched as a plain scalar. -/
theorem Spec.PlainBegins.dispatch {s : Str} (h : PlainBegins s) (x : Context) (n : Nat) :
    Scan.dispatch x n s = .plain ∧ plainBadStart x.isBlock s = false := by
  obtain ⟨hm, h⟩ := h
  have hmark : (startsMarker s && (n == 0 && isWhiteSpaceZ (s.drop 3))) = false := by
    cases hh : (startsMarker s && (n == 0 && isWhiteSpaceZ (s.drop 3))) with
    | false => rfl
    | true =>
      simp only [Bool.and_eq_true] at hh
      exact absurd (atMarker_of (s := s) (n := n) (by simp [isDocumentIndicator, hh.1, hh.2.1, hh.2.2])).2 hm
  rcases h with ⟨b, t, rfl, hb, hr⟩ | ⟨b, t, rfl, hb, hr⟩
  · have hz := PlainFirst.blank (t := t) hr
    simp only [List.mem_cons, List.not_mem_nil, or_false, not_or] at hb
    constructor
    · unfold Scan.dispatch
      rw [hmark]
      simp [startsWith, Scan.isPlainScalar, hz, hb]
    · simp [plainBadStart, startsWith, hb]
  · have hz := PlainFirst.blank (t := t) hr
    have hz0 : isWhiteSpaceZ (b! '-' :: b :: t) = false := PlainFirst.blank (by decide)
    simp only [List.mem_cons, List.not_mem_nil, or_false, not_or] at hb
    constructor
    · unfold Scan.dispatch
      rw [hmark]
      simp [startsWith, Scan.isPlainScalar, hz, hz0, hb, Scan.isPlainSafe, flowIndicator]
    · simp [plainBadStart, startsWith, hb, flowIndicator]

/-- In an ASCII text, such a plain scalar is accepted. -/
theorem step_plain_ok (hx : opts.extendable = false) (hl : opts.lazy = false) {s : SS} {text : Str} (hk : ¬ KeyDue s) (hc : Comes s text)
    (hA : Ascii text) (hb : PlainBegins text) :
    ∃ s' v, Scan.scanNextToken opts s = (.ok (), s') ∧ Pushes s s' (.Token (.Scalar v .Plain)) ∧
      ∃ p, s.buf = p ++ text ∧
        PlainText s'.sc.context.isBlock (levelSucc s'.sc.context.level) (posAfter s.sc.stats p) text v s'.buf := by
  have hne : text ≠ [] := by
    rintro rfl
    rcases hb.2 with ⟨b, t, h, -⟩ | ⟨b, t, h, -⟩ <;> cases h
  have hh : HeadOk text := fun b t h => .inl (hA b (by rw [h]; simp))
  obtain ⟨s1, l, h1, h2, h3, h4, h5, p, h6, h7⟩ := step_comes hx hk hc hh hne
  obtain ⟨hd, hbad⟩ := hb.dispatch s1.sc.context s1.sc.stats.column
  have hst := Closed.dispatch_plain hd s1.sc.stats rfl
  obtain ⟨v, r, e1, e2⟩ := scanPlainEager_ok (indent := levelSucc s1.sc.context.level) hx (c := ⟨text, s1.sc.stats⟩) hA hst hbad
  rw [hd] at h1
  simp only [Scan.run, Scan.fetchPlainScalar] at h1
  have hsub : Scan.sub s1.sc.stats (scanPlain opts (levelSucc s1.sc.context.level) s1.sc.context.isBlock) s1 =
      (.ok (.Token (.Scalar v .Plain), r), s1) := by
    have hp : scanPlain opts (levelSucc s1.sc.context.level) s1.sc.context.isBlock ⟨text, s1.sc.stats⟩ =
        .ok (.Token (.Scalar v .Plain), r) := by
      unfold scanPlain
      rw [hl, e1]
      rfl
    simp [Scan.sub, bind, SO.bind, Scan.get, SO.get, SO.lift, h2, hp]
  obtain ⟨s2, g1, g2, g3, g4⟩ := saveKey_run h3
  obtain ⟨k1, -, -⟩ := saveKey_ok g1
  rw [bind_run (m := Scan.get) (a := s1) (s1 := s1) rfl, bind_run hsub, bind_run g1] at h1
  have hbd : isBoundary s2.buf (s2.buf.length - r.buf.length) = true := by
    rw [g2, h2]
    have hA' : Around text [] := ⟨⟨text, by simp, hA⟩, fun b t h => by cases h⟩
    refine hA'.boundary ?_
    simp
  simp only [bind, SO.bind, Scan.upd, SO.modify, Scan.commit, Scan.enqueue, hbd, ↓reduceIte] at h1
  refine ⟨_, v, h1, ⟨l, ?_, h5⟩, p, h6, ?_⟩
  · unfold pushedBy
    simp only [g3, h4]
    rw [List.append_assoc, List.drop_left]
  · simp only [k1]
    rw [← h7]
    exact e2

end Yary
