import Verif.Proof.Scan.Position
import Verif.Proof.Scan.Keys

/-! # Exact positions of the whole scanner, and when white space is skipped without a panic -/

namespace Yary

open Spec

/-- The statistics are those of the text read, until the end of the text. -/
structure Exact (base : Str) (s : SS) : Prop where
  valid : validUtf8 s.buf = true
  suffix : ∃ p, base = p ++ s.buf
  exact : Reads ⟨base, {}⟩ ⟨s.buf, s.sc.stats⟩ ∨ s.buf = []

theorem Exact.same {base : Str} {s s' : SS} (h : Exact base s) (h1 : s'.buf = s.buf)
    (h2 : s'.sc.stats = s.sc.stats) : Exact base s' :=
  ⟨h1 ▸ h.valid, h1 ▸ h.suffix, by rw [h1, h2]; exact h.exact⟩

theorem Exact.move' {base : Str} (hb : ∀ p t, base ≠ p ++ b! '!' :: b! '<' :: t) {s s' : SS} {c : Cur}
    (h : Exact base s) (hc : Hops s c) (h1 : s'.buf = c.buf) (h2 : s'.sc.stats = c.stats) : Exact base s' := by
  obtain ⟨p, hp⟩ := h.suffix
  obtain ⟨q, hq⟩ := hc.moves.suffix
  simp only at hq
  refine ⟨h1 ▸ hc.valid, ⟨p ++ q, by rw [h1, List.append_assoc, ← hq, hp]⟩, ?_⟩
  rw [h1, h2]
  rcases hc.exact with hr | hr | ⟨⟨t, ht⟩, -⟩
  · rcases h.exact with h' | h'
    · exact .inl (h'.trans hr)
    · rw [h'] at hq
      exact .inr (List.append_eq_nil_iff.1 hq.symm).2
  · exact .inr hr
  · exact absurd (by rw [hp, ht]) (hb p t)

theorem closed_exact {base : Str} (hb : ∀ p t, base ≠ p ++ b! '!' :: b! '<' :: t) : Closed (Exact base) where
  valid h := h.valid
  flags _ h := h.same rfl rfl
  first h _ := h.same rfl rfl
  noKey h := h.same rfl rfl
  stale h _ := h.same rfl rfl
  save _ h := h.same rfl rfl
  move h h1 := h.move' hb h1 rfl rfl
  node h h1 _ _ _ := h.move' hb h1 rfl rfl
  plain h _ _ := h.same rfl rfl
  boundary h _ _ _ _ := h.same rfl rfl
  pop _ h _ := h.same rfl rfl
  roll _ _ _ h _ := h.same rfl rfl
  touch _ h _ := h.same rfl rfl
  rollKey _ _ h _ _ _ _ _ := h.same rfl rfl
  useKey h _ _ _ _ := h.same rfl rfl
  flowStart _ h := h.same rfl rfl
  flowEnd _ h _ _ := h.same rfl rfl

theorem boundary_one {b : Byte} {t : Str} (hb : b < 128) (hv : validUtf8 (b :: t) = true) :
    isBoundary (b :: t) 1 = true := by
  rw [validUtf8_cons hb] at hv
  cases t with
  | nil => rfl
  | cons c t =>
    have := validUtf8_head hv
    simp [isBoundary]
    exact this

/-- Without more text to come, white space is skipped without a panic if comments, where they are
skipped, are ASCII. -/
theorem eatWsLoop_ok {opts : SFlags} (hx : opts.extendable = false) {comments : Bool} :
    ∀ fuel (chomp : Bool) (c : Cur), (chomp = true → comments = true) → c.buf.length < fuel →
    (Ascii c.buf ∨ (comments = false ∧ validUtf8 c.buf = true)) →
    ∃ c', eatWsLoop opts comments fuel chomp c = .ok c' := by
  intro fuel
  induction fuel with
  | zero => intro _ _ _ h; omega
  | succ fuel ih =>
    intro chomp c hch hf hc
    have hv : validUtf8 c.buf = true := hc.elim validUtf8_ascii fun h => h.2
    rw [eatWsLoop]
    have hcache : cache opts 1 c.buf = .ok () := by simp [cache, hx]
    rw [hcache, Out.ok_bind]
    have one : c.buf ≠ [] → (∀ b t, c.buf = b :: t → b < 128) → ∀ ch, (ch = true → comments = true) →
        ∃ c', (c.adv 1 >>= fun c => eatWsLoop opts comments fuel ch c) = .ok c' := by
      intro hne hb ch hch'
      cases hcb : c.buf with
      | nil => exact absurd hcb hne
      | cons b t =>
        have h1 := hb b t hcb
        have : c.adv 1 = .ok ⟨t, c.stats.update 1 0 1⟩ := by
          simp [Cur.adv, hcb, boundary_one h1 (hcb ▸ hv)]
        rw [this, Out.ok_bind]
        refine ih ch _ hch' (by rw [hcb] at hf; simpa using hf) ?_
        rcases hc with h | ⟨h, h'⟩
        · exact .inl fun x hx => h x (by rw [hcb]; simp [hx])
        · rw [hcb, validUtf8_cons h1] at h'
          exact .inr ⟨h, h'⟩
    by_cases h1 : isBlank c.buf = true
    · rw [if_pos h1]
      obtain ⟨b, t, hb, hb'⟩ := isBlank_iff.1 h1
      refine one (by rw [hb]; simp) ?_ chomp hch
      intro b' t' h
      rw [hb] at h
      simp only [List.cons.injEq] at h
      rw [← h.1]
      rcases hb' with h | h <;> rw [h] <;> decide
    · rw [if_neg h1]
      by_cases h2 : isBreak c.buf = true
      · rw [if_pos h2]
        obtain ⟨w, t, e1, e2, e3⟩ := break_split h2
        have hvt : validUtf8 t = true := by
          have hw := e2.1
          simp only [lineBreaks, List.mem_cons, List.not_mem_nil, or_false] at hw
          have : validUtf8 w = true := by rcases hw with rfl | rfl | rfl | rfl | rfl | rfl <;> decide +kernel
          rw [e1, validUtf8_append this] at hv
          exact hv
        have hbd : isBoundary c.buf (breakLen c.buf) = true := by
          rw [e1, breakLen_before e2]
          cases t with
          | nil => simp [isBoundary]
          | cons x t =>
            have := validUtf8_head hvt
            simp [isBoundary]
            exact .inr this
        have : c.line = .ok ⟨t, c.stats.update (breakLen c.buf) 1 0⟩ := by
          simp [Cur.line, hbd, e3]
        rw [this, Out.ok_bind]
        have := breakLen_pos.2 h2
        have hl := congrArg List.length e3
        have := breakLen_le c.buf
        simp at hl
        refine ih false _ (by simp) (by simp only; omega) ?_
        rcases hc with h | ⟨h, h'⟩
        · exact .inl fun x hx => h x (by rw [e1]; simp [hx])
        · exact .inr ⟨h, hvt⟩
      · rw [if_neg h2]
        by_cases h3 : (comments && startsWith c.buf b! '#') = true
        · rw [if_pos h3]
          rw [Bool.and_eq_true] at h3
          obtain ⟨t, hb⟩ := startsWith_iff.1 h3.2
          refine one (by rw [hb]; simp) ?_ true fun _ => h3.1
          intro b' t' h
          rw [hb] at h
          simp only [List.cons.injEq] at h
          rw [← h.1]; decide
        · rw [if_neg h3]
          by_cases h4 : (chomp && !c.buf.isEmpty) = true
          · rw [if_pos h4]
            rw [Bool.and_eq_true] at h4
            refine one (by intro h; simp [h] at h4) ?_ chomp hch
            intro b t h
            rcases hc with h' | ⟨h', -⟩
            · exact h' b (by rw [h]; simp)
            · rw [hch h4.1] at h'; cases h'
          · rw [if_neg h4]
            exact ⟨c, rfl⟩

/-- What the scanner's own skipping does to its state. -/
theorem eatWhitespace_ok {opts : SFlags} {s s' : SS} (h : Scan.eatWhitespace opts s = (.ok (), s')) :
    ∃ c, eatWs opts true ⟨s.buf, {}⟩ = .ok c ∧
      s' = { s with buf := c.buf, sc := { s.sc with
        stats := s.sc.stats.add c.stats
        simpleKeyAllowed := if c.stats.lines ≠ 0 then true else s.sc.simpleKeyAllowed } } := by
  unfold Scan.eatWhitespace at h
  replace h := bind_ok h
  obtain ⟨c, s1, h1, h⟩ := h
  replace h := bind_ok h
  obtain ⟨_, s2, h2, h⟩ := h
  replace h := bind_ok h
  obtain ⟨_, s3, h3, h⟩ := h
  obtain ⟨rfl, rfl⟩ := get_ok h3
  have := upd_ok h2
  subst this
  obtain ⟨hc, rfl⟩ := sub_ok h1
  refine ⟨c, hc, ?_⟩
  rw [commit_ok h]
  rfl

end Yary
