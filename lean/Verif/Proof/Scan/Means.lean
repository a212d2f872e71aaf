import Verif.Proof.Scan.Directives

/-! # What the text of a pushed token is -/

namespace Yary

open Spec

variable {opts : SFlags}

theorem Spec.AsciiTo.around {s r : Str} (h : AsciiTo s r) : Around s r := by
  obtain ⟨h1, rest, rfl⟩ := h
  refine ⟨h1, ?_⟩
  rintro b t hbt
  have hv : validUtf8 (utf8 rest) = true := (validUtf8_iff _).2 ⟨rest, rfl⟩
  rw [hbt] at hv
  have := validUtf8_head hv
  simpa using this

theorem headOk_utf8 (l : List Char) : HeadOk (utf8 l) :=
  (Spec.AsciiTo.around ⟨⟨[], rfl, fun b hb => by cases hb⟩, l, rfl⟩).head

/-- The token the scanner finds, by its text. -/
theorem Scans.means {s : SS} {tok : MaybeToken} {c : Cur} (h : Scans opts s tok c) :
    (∃ t, tok = .Token t ∧ AnchorText s.buf t c.buf) ∨
    (∃ t, tok = .Token t ∧ TagText s.buf t c.buf) ∨
    (∃ w x u rest, tok = .Token (.Tag [] (utf8 u)) ∧ s.buf = bytes! "!<" ++ (w ++ x :: c.buf) ∧ c.buf = b! '>' :: rest ∧
      PercentDecode true w (utf8 u) ∧ UriEnds true (x :: c.buf)) ∨
    (∃ t, tok = .Token t ∧ DirectiveText s.buf t c.buf) ∨
    (∃ single t, s.buf = quoteMark single :: t ∧ scanFlow opts single ⟨s.buf, {}⟩ = .ok (tok, c)) ∨
    (PlainStart s.sc.context.isBlock ⟨s.buf, s.sc.stats⟩ ∧
      scanPlain opts (levelSucc s.sc.context.level) s.sc.context.isBlock ⟨s.buf, s.sc.stats⟩ = .ok (tok, c)) ∨
    (∃ fold t, s.buf = (if fold then b! '>' else b! '|') :: t ∧ s.sc.context.isBlock = true ∧
      scanBlock opts (s.sc.context.level.getD 0) fold ⟨s.buf, s.sc.stats⟩ = .ok (tok, c)) := by
  cases h with
  | @anchor t tok c isAlias h hs =>
    refine .inl ⟨_, rfl, ?_⟩
    rw [h] at hs ⊢
    exact scanAnchor_par _ hs
  | @tag t tok c h hs =>
    rw [h] at hs ⊢
    rcases scanNodeTag_par _ hs with ⟨w, x, s', u, h1, h2, h3, h4, h5, h6⟩ | ⟨hn, hd, w, u, h1, h2, h3, h4, h5, h6⟩
    · obtain ⟨l, rfl⟩ := utf8_of_valid h5
      refine .inr (.inr (.inl ⟨w, x, l, s', ?_, ?_, h2, h3, h4⟩))
      · simp only at h6; rw [h6]
      · rw [h1]; rfl
    · obtain ⟨l, rfl⟩ := utf8_of_valid h5
      refine .inr (.inl ⟨_, rfl, ?_⟩)
      simp only at h1 h2 h4 h6
      rw [h1, h6]
      refine .tag h2 ?_ h3 h4
      rw [← h1]
      rintro z hz
      simp only [List.cons.injEq, true_and] at hz
      exact hn z hz
  | @quoted t tok c single h hs =>
    exact .inr (.inr (.inr (.inr (.inl ⟨single, t, h, hs⟩))))
  | plain h hs => exact .inr (.inr (.inr (.inr (.inr (.inl ⟨h, hs⟩)))))
  | @block t _ _ fold h hx hs => exact .inr (.inr (.inr (.inr (.inr (.inr ⟨fold, t, h, hx, hs⟩)))))
  | @directive t tok c h hc hs =>
    refine .inr (.inr (.inr (.inl ⟨_, rfl, ?_⟩)))
    rw [h] at hs ⊢
    exact directiveToken_par _ hs

/-- A scalar, evaluated or not. -/
def IsScalarTok (tok : MaybeToken) : Prop := (∃ v st, tok = .Token (.Scalar v st)) ∨ ∃ l, tok = .Deferred l

theorem scanFlow_style {single : Bool} {q : Byte} {t : Str} {m : MStats} (hb : isBreak (q :: t) = false) {tok : MaybeToken} {c : Cur}
    (h : scanFlow opts single ⟨q :: t, m⟩ = .ok (tok, c)) :
    (opts.lazy = false ∧ ∃ v, tok = .Token (.Scalar v (flowStyle single)) ∧ scanFlowEager opts single ⟨q :: t, m⟩ = .ok (.Scalar v (flowStyle single), c)) ∨
      opts.lazy = true ∧ ∃ l, tok = .Deferred l := by
  unfold scanFlow at h
  split at h
  · rename_i hl
    obtain ⟨⟨l, c'⟩, h1, h⟩ := Out.bind_eq_ok.1 h
    simp only [Out.ok.injEq, Prod.mk.injEq] at h
    exact .inr ⟨hl, l, h.1.symm⟩
  · rename_i hl
    obtain ⟨⟨l, c'⟩, h1, h⟩ := Out.bind_eq_ok.1 h
    simp only [Out.ok.injEq, Prod.mk.injEq] at h
    obtain ⟨-, -, v, hv⟩ := (scanFlowEager_sat (P := True) (.inl trivial) (.inl trivial) hb).of_ok h1
    simp only at hv
    rw [h.2, hv] at h1
    exact .inl ⟨by simpa using hl, v, by rw [← h.1, hv], h1⟩

theorem scanPlain_style {indent : Nat} {block : Bool} {c0 c : Cur} {tok : MaybeToken} (hst : PlainStart block c0)
    (h : scanPlain opts indent block c0 = .ok (tok, c)) :
    (opts.lazy = false ∧ ∃ v, tok = .Token (.Scalar v .Plain) ∧ scanPlainEager opts indent block c0 = .ok (.Scalar v .Plain, c)) ∨
      opts.lazy = true ∧ ∃ l, tok = .Deferred l := by
  unfold scanPlain at h
  split at h
  · rename_i hl
    obtain ⟨⟨l, c'⟩, h1, h⟩ := Out.bind_eq_ok.1 h
    simp only [Out.ok.injEq, Prod.mk.injEq] at h
    exact .inr ⟨hl, l, h.1.symm⟩
  · rename_i hl
    obtain ⟨⟨l, c'⟩, h1, h⟩ := Out.bind_eq_ok.1 h
    simp only [Out.ok.injEq, Prod.mk.injEq] at h
    obtain ⟨-, -, v, hv, -⟩ := (scanPlainEager_sat (P := True) (.inl trivial) hst).of_ok h1
    simp only at hv
    rw [h.2, hv] at h1
    exact .inl ⟨by simpa using hl, v, by rw [← h.1, hv], h1⟩

theorem scanBlock_style {base : Nat} {fold : Bool} {c0 c : Cur} {tok : MaybeToken} (hne : c0.buf ≠ []) (hnb : isBreak c0.buf = false)
    (h : scanBlock opts base fold c0 = .ok (tok, c)) :
    (opts.lazy = false ∧ ∃ v, tok = .Token (.Scalar v (blockStyle fold)) ∧ scanBlockEager opts base fold c0 = .ok (.Scalar v (blockStyle fold), c)) ∨
      opts.lazy = true ∧ ∃ l, tok = .Deferred l := by
  unfold scanBlock at h
  split at h
  · rename_i hl
    obtain ⟨⟨l, c'⟩, h1, h⟩ := Out.bind_eq_ok.1 h
    simp only [Out.ok.injEq, Prod.mk.injEq] at h
    exact .inr ⟨hl, l, h.1.symm⟩
  · rename_i hl
    obtain ⟨⟨l, c'⟩, h1, h⟩ := Out.bind_eq_ok.1 h
    simp only [Out.ok.injEq, Prod.mk.injEq] at h
    obtain ⟨-, -, v, hv⟩ := (scanBlockEager_sat (P := True) trivial hne hnb).of_ok h1
    simp only at hv
    rw [h.2, hv] at h1
    exact .inl ⟨by simpa using hl, v, by rw [← h.1, hv], h1⟩

/-- The tokens other than scalars. -/
theorem Scans.named {s : SS} {tok : Token} {c : Cur} (h : Scans opts s (.Token tok) c) :
    AnchorText s.buf tok c.buf ∨ TagText s.buf tok c.buf ∨
    (∃ w x u rest, tok = .Tag [] (utf8 u) ∧ s.buf = bytes! "!<" ++ (w ++ x :: c.buf) ∧ c.buf = b! '>' :: rest ∧
      PercentDecode true w (utf8 u) ∧ UriEnds true (x :: c.buf)) ∨
    DirectiveText s.buf tok c.buf ∨ ∃ v st, tok = .Scalar v st := by
  rcases h.means with ⟨t, h1, h2⟩ | ⟨t, h1, h2⟩ | ⟨w, x, u, rest, h1, h2⟩ | ⟨t, h1, h2⟩ | ⟨single, t, h1, h2⟩ | ⟨h1, h2⟩ | ⟨fold, t, h1, hb, h2⟩
  · cases h1; exact .inl h2
  · cases h1; exact .inr (.inl h2)
  · cases h1; exact .inr (.inr (.inl ⟨w, x, u, rest, rfl, h2⟩))
  · cases h1; exact .inr (.inr (.inr (.inl h2)))
  · rw [h1] at h2
    rcases scanFlow_style (quoteMark_noBrk (single := single)).isBreak h2 with ⟨-, v, h, -⟩ | ⟨-, l, h⟩
    · cases h; exact .inr (.inr (.inr (.inr ⟨_, _, rfl⟩)))
    · cases h
  · rcases scanPlain_style h1 h2 with ⟨-, v, h, -⟩ | ⟨-, l, h⟩
    · cases h; exact .inr (.inr (.inr (.inr ⟨_, _, rfl⟩)))
    · cases h
  · have hnb : NoBrk (if fold then b! '>' else b! '|') := by cases fold <;> decide
    rcases scanBlock_style (by rw [h1]; simp) (by rw [h1]; exact hnb.isBreak) h2 with ⟨-, v, h, -⟩ | ⟨-, l, h⟩
    · cases h; exact .inr (.inr (.inr (.inr ⟨_, _, rfl⟩)))
    · cases h

/-- The quoted scalars. -/
theorem Scans.quotes {s : SS} {v : Str} {single : Bool} {c : Cur} (h : Scans opts s (.Token (.Scalar v (quoteStyle single))) c)
    (hU : single = true ∨ CodesOk s.buf) : ∃ t, s.buf = quoteMark single :: t ∧ Quoted single t v c.buf := by
  rcases h.means with ⟨t, h1, h2⟩ | ⟨t, h1, h2⟩ | ⟨w, x, u, rest, h1, h2⟩ | ⟨t, h1, h2⟩ | ⟨single', t, h1, h2⟩ | ⟨h1, h2⟩ | ⟨fold, t, h1, hb, h2⟩
  · cases h1; generalize s.buf = z at h2; cases h2
  · cases h1; generalize s.buf = z at h2; cases h2
  · cases h1
  · cases h1; generalize s.buf = z at h2; cases h2
  · rw [h1] at h2
    rcases scanFlow_style (quoteMark_noBrk (single := single')).isBreak h2 with ⟨-, v', h, h3⟩ | ⟨-, l, h⟩
    · have : single' = single := by
        simp only [MaybeToken.Token.injEq, Token.Scalar.injEq] at h
        have := h.2
        cases single <;> cases single' <;> simp [quoteStyle, flowStyle] at this <;> rfl
      subst this
      simp only [MaybeToken.Token.injEq, Token.Scalar.injEq] at h
      rw [h.1]
      obtain ⟨v'', g1, g2⟩ := scanFlowEager_par (h1 ▸ hU) _ h3
      simp only [Token.Scalar.injEq, and_true] at g1
      exact ⟨t, h1, g1 ▸ g2⟩
    · cases h
  · rcases scanPlain_style h1 h2 with ⟨-, v, h, -⟩ | ⟨-, l, h⟩
    · cases single <;> simp [quoteStyle] at h
    · cases h
  · have hnb : NoBrk (if fold then b! '>' else b! '|') := by cases fold <;> decide
    rcases scanBlock_style (by rw [h1]; simp) (by rw [h1]; exact hnb.isBreak) h2 with ⟨-, v, h, -⟩ | ⟨-, l, h⟩
    · cases fold <;> cases single <;> simp [quoteStyle, blockStyle] at h
    · cases h

end Yary
