import Verif.Proof.Scan.Cow
import Verif.Proof.Scan.BlockValue
import Verif.Props.Blocks

/-! # Which contents are borrowed

`/repo/src/event/types.rs:17-25`: "Most variable data returned in Events … where possible, will be borrowed from the
underlying byte stream." -/

namespace Yary

open Spec

variable {opts : SFlags} {doc : List Char} {s s' : SS} {e : TokenEntry}

theorem dispatch_anchor {x : Context} {col : Nat} {isAlias : Bool} {t : Str} :
    Scan.dispatch x col ((if isAlias then b! '*' else b! '&') :: t) = .anchor := by
  unfold Scan.dispatch
  cases isAlias <;> simp [startsWith, startsMarker]

theorem dispatch_tag {x : Context} {col : Nat} {t : Str} : Scan.dispatch x col (b! '!' :: t) = .tag := by
  unfold Scan.dispatch
  simp [startsWith, startsMarker]

theorem dispatch_quoted {x : Context} {col : Nat} {single : Bool} {t : Str} :
    Scan.dispatch x col ((if single then 0x27 else b! '"') :: t) = .quoted := by
  unfold Scan.dispatch
  cases single <;> simp [startsWith, startsMarker]

theorem dispatch_block {x : Context} {col : Nat} {fold : Bool} {t : Str} (hx : x.isBlock = true) :
    Scan.dispatch x col ((if fold then b! '>' else b! '|') :: t) = .block fold := by
  unfold Scan.dispatch
  cases fold <;> simp [startsWith, startsMarker, hx]

theorem dispatch_directive {x : Context} {t : Str} : Scan.dispatch x 0 (b! '%' :: t) = .directive := by
  unfold Scan.dispatch
  simp [startsWith]

theorem cows_prepared {s1 : SS} (h0 : s.sc.state ≠ .Start) (h1 : Scan.prepare opts s = (.ok (), s1)) (h2 : s1.buf ≠ []) (h3 : s1.sc.state ≠ .Done) :
    Scan.cows opts s = fetchCows opts s1 (Scan.dispatch s1.sc.context s1.sc.stats.column s1.buf) := by
  unfold Scan.cows
  have e0 : (s.sc.state == .Start) = false := by simpa using h0
  have e2 : (s1.buf.isEmpty || s1.sc.state == .Done) = false := by
    simp only [Bool.or_eq_false_iff, List.isEmpty_eq_false_iff]
    exact ⟨h2, by simpa using h3⟩
  simp [e0, h1, e2]

/-- The step that pushes a token with contents. -/
theorem step_cows (h : Reach true opts (utf8 doc) s) (hs : Scan.scanNextToken opts s = (.ok (), s')) (he : e ∈ pushedBy s s') {tok : Token}
    (hw : e.wrap = .Token tok) (hc : contents tok ≠ []) :
    ∃ n s1 c, Skips true s.buf n s1.buf ∧ Scans opts s1 (.Token tok) c ∧ s'.buf = c.buf ∧
      Scan.cows opts s = fetchCows opts s1 (Scan.dispatch s1.sc.context s1.sc.stats.column s1.buf) := by
  obtain ⟨n, s1, c, ⟨g1, g2, g3, g4⟩, h1, -, h2, h3, -⟩ := step_fetch (reach_before ((validUtf8_iff _).2 ⟨doc, rfl⟩) h) hs he (by
    rintro ⟨g, -, g'⟩
    rw [hw] at g g'
    cases tok <;> simp [isNode, MaybeToken.marker, Marker.ofToken, contents] at g g' hc)
  exact ⟨n, s1, c, h1, hw ▸ h2, h3, cows_prepared g1 g2 g3 g4⟩

theorem tagParts_are {verbatim : Bool} {text p hd sfx : Str} {l : List Cow} (h : TagParts verbatim text p hd sfx l) : CowsAre text l [hd, sfx] := by
  obtain ⟨_, _, -, -, -, k, -⟩ := h
  exact k

theorem sub_flow {single : Bool} {c c2 : Cur} {tok : Token} (h : scanFlow opts single c = .ok (.Token tok, c2)) :
    scanFlowEager opts single c = .ok (tok, c2) := by
  unfold scanFlow at h
  split at h
  · obtain ⟨_, -, h⟩ := Out.bind_eq_ok.1 h; cases h
  · obtain ⟨⟨_, _⟩, h1, h⟩ := Out.bind_eq_ok.1 h; cases h; exact h1

theorem sub_plain {indent : Nat} {block : Bool} {c c2 : Cur} {tok : Token} (h : scanPlain opts indent block c = .ok (.Token tok, c2)) :
    scanPlainEager opts indent block c = .ok (tok, c2) := by
  unfold scanPlain at h
  split at h
  · obtain ⟨_, -, h⟩ := Out.bind_eq_ok.1 h; cases h
  · obtain ⟨⟨_, _⟩, h1, h⟩ := Out.bind_eq_ok.1 h; cases h; exact h1

theorem sub_block {indent : Nat} {fold : Bool} {c c2 : Cur} {tok : Token} (h : scanBlock opts indent fold c = .ok (.Token tok, c2)) :
    scanBlockEager opts indent fold c = .ok (tok, c2) := by
  unfold scanBlock at h
  split at h
  · obtain ⟨_, -, h⟩ := Out.bind_eq_ok.1 h; cases h
  · obtain ⟨⟨_, _⟩, h1, h⟩ := Out.bind_eq_ok.1 h; cases h; exact h1

/-- What each function scans, with its style. -/
theorem flowEager_scalar {single : Bool} {c c2 : Cur} {tok : Token} (h : scanFlowEager opts single c = .ok (tok, c2)) :
    ∃ v, tok = .Scalar v (flowStyle single) := by
  unfold scanFlowEager at h
  obtain ⟨_, -, h⟩ := Out.bind_eq_ok.1 h
  obtain ⟨_, -, h⟩ := Out.bind_eq_ok.1 h
  obtain ⟨_, -, h⟩ := Out.bind_eq_ok.1 h
  obtain ⟨_, -, h⟩ := Out.bind_eq_ok.1 h
  obtain ⟨_, -, h⟩ := Out.bind_eq_ok.1 h
  obtain ⟨_, -, h⟩ := Out.bind_eq_ok.1 h
  cases h
  exact ⟨_, rfl⟩

theorem plainEager_scalar {indent : Nat} {block : Bool} {c c2 : Cur} {tok : Token} (h : scanPlainEager opts indent block c = .ok (tok, c2)) :
    ∃ v, tok = .Scalar v .Plain := by
  rw [scanPlainEager_eq] at h
  obtain ⟨_, -, h⟩ := Out.bind_eq_ok.1 h
  split at h
  · cases h
  obtain ⟨_, -, h⟩ := Out.bind_eq_ok.1 h
  obtain ⟨_, -, h⟩ := Out.bind_eq_ok.1 h
  obtain ⟨_, -, h⟩ := Out.bind_eq_ok.1 h
  cases h
  exact ⟨_, rfl⟩

theorem blockEager_scalar {indent : Nat} {fold : Bool} {c c2 : Cur} {tok : Token} (h : scanBlockEager opts indent fold c = .ok (tok, c2)) :
    ∃ v, tok = .Scalar v (blockStyle fold) := by
  rw [scanBlockEager_eq] at h
  obtain ⟨⟨_, _, _⟩, -, h⟩ := Out.bind_eq_ok.1 h
  obtain ⟨_, -, h⟩ := Out.bind_eq_ok.1 h
  obtain ⟨_, -, h⟩ := Out.bind_eq_ok.1 h
  obtain ⟨_, -, h⟩ := Out.bind_eq_ok.1 h
  cases h
  exact ⟨_, rfl⟩

theorem quoted_cows {s1 : SS} {single : Bool} {t v : Str} {sty : ScalarStyle} {c : Cur} (h : s1.buf = (if single then 0x27 else b! '"') :: t)
    (hs : scanFlowEager opts single ⟨s1.buf, {}⟩ = .ok (.Scalar v sty, c)) :
    ∃ w, s1.buf = quoteMark single :: (w ++ quoteMark single :: c.buf) ∧
      (Verbatim single w (quoteMark single :: c.buf) → fetchCows opts s1 (Scan.dispatch s1.sc.context s1.sc.stats.column s1.buf) = .ok [.Borrowed 1 (1 + w.length)] ∧ v = w) ∧
      (¬ Verbatim single w (quoteMark single :: c.buf) → fetchCows opts s1 (Scan.dispatch s1.sc.context s1.sc.stats.column s1.buf) = .ok [.Owned v]) := by
  have hd : fetchCows opts s1 (Scan.dispatch s1.sc.context s1.sc.stats.column s1.buf) = flowCow opts single ⟨s1.buf, {}⟩ := by
    rw [h, dispatch_quoted]
    unfold fetchCows
    simp only
    rw [h]
    cases single <;> simp [startsWith]
  rw [hd]
  rw [h] at hs ⊢
  obtain ⟨w, h1, h2, h3⟩ := scanFlowEager_cow hs
  exact ⟨w, by rw [h1]; cases single <;> rfl, h2, h3⟩

theorem plain_cows {s1 : SS} {v : Str} {sty : ScalarStyle} {c : Cur} (h : PlainStart s1.sc.context.isBlock ⟨s1.buf, s1.sc.stats⟩)
    (hd : Scan.dispatch s1.sc.context s1.sc.stats.column s1.buf = .plain)
    (hs : scanPlainEager opts (levelSucc s1.sc.context.level) s1.sc.context.isBlock ⟨s1.buf, s1.sc.stats⟩ = .ok (.Scalar v sty, c)) :
    ∃ w n t, s1.buf = w ++ c.buf ∧ Skips false c.buf n t ∧
      (SameLine w c.buf ∧ n = 0 → fetchCows opts s1 (Scan.dispatch s1.sc.context s1.sc.stats.column s1.buf) = .ok [.Borrowed 0 w.length] ∧ v = w) ∧
      (¬ (SameLine w c.buf ∧ n = 0) → fetchCows opts s1 (Scan.dispatch s1.sc.context s1.sc.stats.column s1.buf) = .ok [.Owned v]) := by
  rw [hd]
  exact scanPlainEager_cow h.white hs

/-! ### C59 -/

/-- **C59**, what is borrowed is a part of the text: the contents of a token that a step adds are those that `Scan.cows`
names, and those it borrows are at the place it gives. -/
theorem C59_slices (h : Reach true opts (utf8 doc) s) (hs : Scan.scanNextToken opts s = (.ok (), s')) (he : e ∈ pushedBy s s') {tok : Token}
    (hw : e.wrap = .Token tok) (hc : contents tok ≠ []) :
    ∃ n text l, Skips true s.buf n text ∧ Scan.cows opts s = .ok l ∧ CowsAre text l (contents tok) := by
  obtain ⟨n, s1, c, h1, h2, -, h4⟩ := step_cows h hs he hw hc
  refine ⟨n, s1.buf, ?_⟩
  rw [h4]
  suffices g : ∃ l, fetchCows opts s1 (Scan.dispatch s1.sc.context s1.sc.stats.column s1.buf) = .ok l ∧ CowsAre s1.buf l (contents tok) by
    obtain ⟨l, g1, g2⟩ := g
    exact ⟨l, h1, g1, g2⟩
  clear h h1 h4 hs he
  cases h2 with
  | @anchor t _ _ isAlias hb hsc =>
    rw [hb, dispatch_anchor, ← hb]
    obtain ⟨l, g1, g2, -⟩ := scanAnchor_cow hsc (by simp [hb])
    exact ⟨l, g1, g2⟩
  | @tag t _ _ hb hsc =>
    unfold fetchCows
    rw [hb] at hsc ⊢
    rw [dispatch_tag]
    obtain ⟨l, hd, sfx, g1, rfl, ⟨-, g2⟩ | ⟨-, g2⟩⟩ := scanNodeTag_cow hsc
    · exact ⟨l, g1, tagParts_are g2⟩
    · exact ⟨l, g1, tagParts_are g2⟩
  | @quoted t _ _ single hb hsc =>
    have hsc := sub_flow hsc
    obtain ⟨v, rfl⟩ := flowEager_scalar hsc
    obtain ⟨w, g1, g2, g3⟩ := quoted_cows hb hsc
    by_cases hv : Verbatim single w (quoteMark single :: c.buf)
    · obtain ⟨g2, rfl⟩ := g2 hv
      refine ⟨_, g2, ⟨[quoteMark single], quoteMark single :: c.buf, by rw [g1]; rfl, rfl, rfl⟩, trivial⟩
    · exact ⟨_, g3 hv, rfl, trivial⟩
  | plain hb hsc hd =>
    have hsc := sub_plain hsc
    obtain ⟨v, rfl⟩ := plainEager_scalar hsc
    obtain ⟨w, n, t, g1, -, g2, g3⟩ := plain_cows hb hd hsc
    by_cases hv : SameLine w c.buf ∧ n = 0
    · obtain ⟨g2, rfl⟩ := g2 hv
      refine ⟨_, g2, ⟨[], c.buf, g1, rfl, by simp⟩, trivial⟩
    · exact ⟨_, g3 hv, rfl, trivial⟩
  | @block t _ _ fold hb hx hsc =>
    obtain ⟨l, g1, g2⟩ := scanBlockEager_cow (sub_block hsc)
    refine ⟨l, ?_, g2⟩
    rw [hb, dispatch_block hx]
    exact g1
  | @directive t _ _ hb hcol hsc =>
    obtain ⟨l, g1, g2, -⟩ := directiveToken_cow hsc
    refine ⟨l, ?_, g2⟩
    rw [hb, hcol, dispatch_directive]
    exact g1

/-- **C59**, quoted scalars: borrowed if there is nothing in them to be resolved, and copied otherwise. -/
theorem C59_quoted (h : Reach true opts (utf8 doc) s) (hs : Scan.scanNextToken opts s = (.ok (), s')) (he : e ∈ pushedBy s s') {v : Str} {single : Bool}
    (hw : e.wrap = .Token (.Scalar v (if single then .SingleQuote else .DoubleQuote))) :
    ∃ n w, Skips true s.buf n ((if single then 0x27 else b! '"') :: (w ++ (if single then 0x27 else b! '"') :: s'.buf)) ∧
      (Verbatim single w ((if single then 0x27 else b! '"') :: s'.buf) → Scan.cows opts s = .ok [.Borrowed 1 (1 + w.length)] ∧ v = w) ∧
      (¬ Verbatim single w ((if single then 0x27 else b! '"') :: s'.buf) → Scan.cows opts s = .ok [.Owned v]) := by
  have hq : quoteMark single = if single then 0x27 else b! '"' := by cases single <;> rfl
  obtain ⟨n, s1, c, h1, h2, h3, h4⟩ := step_cows h hs he hw (by simp [contents])
  rw [h4, h3]
  suffices g : ∃ w, s1.buf = quoteMark single :: (w ++ quoteMark single :: c.buf) ∧
      (Verbatim single w (quoteMark single :: c.buf) → fetchCows opts s1 (Scan.dispatch s1.sc.context s1.sc.stats.column s1.buf) = .ok [.Borrowed 1 (1 + w.length)] ∧ v = w) ∧
      (¬ Verbatim single w (quoteMark single :: c.buf) → fetchCows opts s1 (Scan.dispatch s1.sc.context s1.sc.stats.column s1.buf) = .ok [.Owned v]) by
    obtain ⟨w, g1, g2⟩ := g
    rw [hq] at g1 g2
    exact ⟨n, w, g1 ▸ h1, g2⟩
  clear h h1 h4 hs he hw h3
  generalize htok : MaybeToken.Token (.Scalar v (if single then .SingleQuote else .DoubleQuote)) = tok at h2
  cases h2 with
  | @anchor t _ _ isAlias hb hsc =>
    cases htok
    rw [hb] at hsc
    have := scanAnchor_par (isAlias := isAlias) (t := t) (m := {}) _ (by cases isAlias <;> exact hsc)
    generalize anchorMark isAlias :: t = z at this
    cases this
  | @tag t _ _ hb hsc =>
    cases htok
    rw [hb] at hsc
    obtain ⟨_, _, _, -, g, -⟩ := scanNodeTag_cow hsc
    cases g
  | @quoted t _ _ single' hb hsc =>
    subst htok
    have hsc := sub_flow hsc
    obtain ⟨v', g⟩ := flowEager_scalar hsc
    obtain rfl : single' = single := by cases single <;> cases single' <;> first | rfl | cases g
    exact quoted_cows hb hsc
  | plain hb hsc hd =>
    subst htok
    obtain ⟨v', g⟩ := plainEager_scalar (sub_plain hsc)
    cases single <;> cases g
  | @block t _ _ fold hb hx hsc =>
    subst htok
    obtain ⟨v', g⟩ := blockEager_scalar (sub_block hsc)
    cases single <;> cases fold <;> cases g
  | @directive t _ _ hb hcol hsc =>
    cases htok
    rw [hb] at hsc
    have := directiveToken_par _ hsc
    generalize b! '%' :: t = z at this
    cases this

/-- **C59**, plain scalars: borrowed if they are in one line, and no line break follows before the next thing; copied otherwise. -/
theorem C59_plain (h : Reach true opts (utf8 doc) s) (hs : Scan.scanNextToken opts s = (.ok (), s')) (he : e ∈ pushedBy s s') {v : Str}
    (hw : e.wrap = .Token (.Scalar v .Plain)) :
    ∃ n w n' t, Skips true s.buf n (w ++ s'.buf) ∧ Skips false s'.buf n' t ∧
      (SameLine w s'.buf ∧ n' = 0 → Scan.cows opts s = .ok [.Borrowed 0 w.length] ∧ v = w) ∧
      (¬ (SameLine w s'.buf ∧ n' = 0) → Scan.cows opts s = .ok [.Owned v]) := by
  obtain ⟨n, s1, c, h1, h2, h3, h4⟩ := step_cows h hs he hw (by simp [contents])
  rw [h4, h3]
  suffices g : ∃ w n t, s1.buf = w ++ c.buf ∧ Skips false c.buf n t ∧
      (SameLine w c.buf ∧ n = 0 → fetchCows opts s1 (Scan.dispatch s1.sc.context s1.sc.stats.column s1.buf) = .ok [.Borrowed 0 w.length] ∧ v = w) ∧
      (¬ (SameLine w c.buf ∧ n = 0) → fetchCows opts s1 (Scan.dispatch s1.sc.context s1.sc.stats.column s1.buf) = .ok [.Owned v]) by
    obtain ⟨w, n', t, g1, g2⟩ := g
    exact ⟨n, w, n', t, g1 ▸ h1, g2⟩
  clear h h1 h4 hs he hw h3
  generalize htok : MaybeToken.Token (.Scalar v .Plain) = tok at h2
  cases h2 with
  | @anchor t _ _ isAlias hb hsc =>
    cases htok
    rw [hb] at hsc
    have := scanAnchor_par (isAlias := isAlias) (t := t) (m := {}) _ (by cases isAlias <;> exact hsc)
    generalize anchorMark isAlias :: t = z at this
    cases this
  | @tag t _ _ hb hsc =>
    cases htok
    rw [hb] at hsc
    obtain ⟨_, _, _, -, g, -⟩ := scanNodeTag_cow hsc
    cases g
  | @quoted t _ _ single' hb hsc =>
    subst htok
    obtain ⟨v', g⟩ := flowEager_scalar (sub_flow hsc)
    cases single' <;> cases g
  | plain hb hsc hd =>
    subst htok
    exact plain_cows hb hd (sub_plain hsc)
  | @block t _ _ fold hb hx hsc =>
    subst htok
    obtain ⟨v', g⟩ := blockEager_scalar (sub_block hsc)
    cases fold <;> cases g
  | @directive t _ _ hb hcol hsc =>
    cases htok
    rw [hb] at hsc
    have := directiveToken_par _ hsc
    generalize b! '%' :: t = z at this
    cases this

/-- **C59**, anchors and aliases are always borrowed. -/
theorem C59_anchor (h : Reach true opts (utf8 doc) s) (hs : Scan.scanNextToken opts s = (.ok (), s')) (he : e ∈ pushedBy s s') {name : Str}
    (hw : e.wrap = .Token (.Anchor name) ∨ e.wrap = .Token (.Alias name)) : ∃ l, Scan.cows opts s = .ok l ∧ AllBorrowed l := by
  obtain ⟨tok, hw, hno⟩ : ∃ tok, e.wrap = .Token tok ∧ (tok = .Anchor name ∨ tok = .Alias name) := by
    rcases hw with hw | hw
    · exact ⟨_, hw, .inl rfl⟩
    · exact ⟨_, hw, .inr rfl⟩
  obtain ⟨n, s1, c, h1, h2, h3, h4⟩ := step_cows h hs he hw (by rcases hno with rfl | rfl <;> simp [contents])
  rw [h4]
  clear h h1 h4 hs he hw h3
  generalize htok : MaybeToken.Token tok = tok' at h2
  cases h2 with
  | @anchor t _ _ isAlias hb hsc =>
    rw [hb, dispatch_anchor]
    obtain ⟨l, g1, -, g3⟩ := scanAnchor_cow hsc (by simp [hb])
    exact ⟨l, g1, g3⟩
  | @tag t _ _ hb hsc =>
    cases htok
    rw [hb] at hsc
    obtain ⟨_, _, _, -, g, -⟩ := scanNodeTag_cow hsc
    rcases hno with rfl | rfl <;> cases g
  | @quoted t _ _ single' hb hsc =>
    subst htok
    obtain ⟨v', g⟩ := flowEager_scalar (sub_flow hsc)
    rcases hno with rfl | rfl <;> cases g
  | plain hb hsc hd =>
    subst htok
    obtain ⟨v', g⟩ := plainEager_scalar (sub_plain hsc)
    rcases hno with rfl | rfl <;> cases g
  | @block t _ _ fold hb hx hsc =>
    subst htok
    obtain ⟨v', g⟩ := blockEager_scalar (sub_block hsc)
    rcases hno with rfl | rfl <;> cases g
  | @directive t _ _ hb hcol hsc =>
    cases htok
    rw [hb] at hsc
    have := directiveToken_par _ hsc
    generalize b! '%' :: t = z at this
    rcases hno with rfl | rfl <;> cases this

/-- **C59**, tags: the handle and the suffix are borrowed if nothing in the suffix (`w`) is percent-encoded; else both are copied. -/
theorem C59_tag (h : Reach true opts (utf8 doc) s) (hs : Scan.scanNextToken opts s = (.ok (), s')) (he : e ∈ pushedBy s s') {hd sfx : Str}
    (hw : e.wrap = .Token (.Tag hd sfx)) :
    ∃ n p w r l, Skips true s.buf n (p ++ (w ++ r)) ∧ p = (if hd = [] then bytes! "!<" else hd) ∧
      PercentDecode (decide (hd = [])) w sfx ∧ UriEnds (decide (hd = [])) r ∧ Scan.cows opts s = .ok l ∧
      (b! '%' ∉ w → AllBorrowed l) ∧ (b! '%' ∈ w → AllOwned l) := by
  obtain ⟨n, s1, c, h1, h2, h3, h4⟩ := step_cows h hs he hw (by simp [contents])
  rw [h4]
  clear h h4 hs he hw h3
  generalize htok : MaybeToken.Token (.Tag hd sfx) = tok' at h2
  cases h2 with
  | @anchor t _ _ isAlias hb hsc =>
    cases htok
    rw [hb] at hsc
    have := scanAnchor_par (isAlias := isAlias) (t := t) (m := {}) _ (by cases isAlias <;> exact hsc)
    generalize anchorMark isAlias :: t = z at this
    cases this
  | @tag t _ _ hb hsc =>
    cases htok
    unfold fetchCows
    rw [hb] at hsc h1 ⊢
    rw [dispatch_tag]
    obtain ⟨l, hd, sfx, g1, g, ⟨g0, w, r, g2, g3, g4, -, g5⟩ | ⟨g0, w, r, g2, g3, g4, -, g5⟩⟩ := scanNodeTag_cow hsc
    · cases g
      exact ⟨n, _, w, r, l, g2 ▸ h1, by simp [g0], by simpa [g0] using g3, by simpa [g0] using g4, g1, g5⟩
    · cases g
      exact ⟨n, _, w, r, l, g2 ▸ h1, by simp [g0], by simpa [g0] using g3, by simpa [g0] using g4, g1, g5⟩
  | @quoted t _ _ single' hb hsc =>
    subst htok
    obtain ⟨v', g⟩ := flowEager_scalar (sub_flow hsc)
    cases g
  | plain hb hsc hd =>
    subst htok
    obtain ⟨v', g⟩ := plainEager_scalar (sub_plain hsc)
    cases g
  | @block t _ _ fold hb hx hsc =>
    subst htok
    obtain ⟨v', g⟩ := blockEager_scalar (sub_block hsc)
    cases g
  | @directive t _ _ hb hcol hsc =>
    cases htok
    rw [hb] at hsc
    have := directiveToken_par _ hsc
    generalize b! '%' :: t = z at this
    cases this

/-- **C59**, tag directives: the same, with the prefix. -/
theorem C59_directive (h : Reach true opts (utf8 doc) s) (hs : Scan.scanNextToken opts s = (.ok (), s')) (he : e ∈ pushedBy s s') {hd pfx : Str}
    (hw : e.wrap = .Token (.TagDirective hd pfx)) :
    ∃ n p z w r l, Skips true s.buf n (p ++ (hd ++ z) ++ (w ++ r)) ∧ PercentDecode false w pfx ∧ UriEnds false r ∧ Scan.cows opts s = .ok l ∧
      (b! '%' ∉ w → AllBorrowed l) ∧ (b! '%' ∈ w → AllOwned l) := by
  obtain ⟨n, s1, c, h1, h2, h3, h4⟩ := step_cows h hs he hw (by simp [contents])
  rw [h4]
  clear h h4 hs he hw h3
  generalize htok : MaybeToken.Token (.TagDirective hd pfx) = tok' at h2
  cases h2 with
  | @anchor t _ _ isAlias hb hsc =>
    cases htok
    rw [hb] at hsc
    have := scanAnchor_par (isAlias := isAlias) (t := t) (m := {}) _ (by cases isAlias <;> exact hsc)
    generalize anchorMark isAlias :: t = z at this
    cases this
  | @tag t _ _ hb hsc =>
    cases htok
    rw [hb] at hsc
    obtain ⟨_, _, _, -, g, -⟩ := scanNodeTag_cow hsc
    cases g
  | @quoted t _ _ single' hb hsc =>
    subst htok
    obtain ⟨v', g⟩ := flowEager_scalar (sub_flow hsc)
    cases g
  | plain hb hsc hd =>
    subst htok
    obtain ⟨v', g⟩ := plainEager_scalar (sub_plain hsc)
    cases g
  | @block t _ _ fold hb hx hsc =>
    subst htok
    obtain ⟨v', g⟩ := blockEager_scalar (sub_block hsc)
    cases g
  | @directive t _ _ hb hcol hsc =>
    cases htok
    obtain ⟨l, g1, -, g3⟩ := directiveToken_cow hsc
    obtain ⟨q, z, ⟨w, r, k1, k2, k3, -, k4⟩, p, rfl⟩ := g3 hd pfx rfl
    refine ⟨n, p, z, w, r, l, k1 ▸ h1, k2, k3, ?_, k4⟩
    rw [hb, hcol, dispatch_directive]
    exact g1

/-- **C59**, block scalars of ASCII text between line feeds: borrowed if they are one line, right after the header, of whose line breaks
at most one stays; copied otherwise. -/
theorem C59_block (hx : opts.extendable = false) {x : BlockScalar} {n j : Nat} {q : Str} (hk : ¬ KeyDue s)
    (hf : s.sc.context.flow = 0) (hi : IndentedBelow n s.sc.context) (hok : x.Ok) (hb : x.Before n j q) (hc : Comes s (x.written n ++ (spaces j ++ q))) :
    ∃ l, Scan.cows opts s = .ok l ∧
      (x.first.empty = 0 ∧ x.more = [] ∧ (x.chomp = .keep → x.breaks ≤ 1) → AllBorrowed l) ∧
      (¬ (x.first.empty = 0 ∧ x.more = [] ∧ (x.chomp = .keep → x.breaks ≤ 1)) → AllOwned l) := by
  obtain ⟨text, ht⟩ : ∃ text, x.written n ++ (spaces j ++ q) = (if x.fold then b! '>' else b! '|') :: text := ⟨_, by rw [BlockScalar.written]; rfl⟩
  have hh : HeadOk (x.written n ++ (spaces j ++ q)) := by
    rw [ht]
    refine .cons ?_
    cases x.fold <;> decide
  obtain ⟨s1, l, h1, h2, h3, -⟩ := prepare_comes hx hk hc hh
  obtain ⟨c1, c2⟩ := prepare_context h1
  have hbl : s1.sc.context.isBlock = true := by rw [hf] at c1; simp [Context.isBlock, c1]
  have hlev : s1.sc.context.level.getD 0 < n := by
    have := (c2 n hi).1
    unfold Context.level
    split
    · exact this
    · simp; omega
  rw [cows_prepared (by rw [hc.1]; simp) h1 (by rw [h2, ht]; simp) (by rw [h3]; simp), h2, ht, dispatch_block hbl]
  unfold fetchCows
  simp only
  rw [h2]
  exact block_text_cow hx hok hb hlev

/-- **C59**, "where possible", is false of plain scalars: the contents of this one are a part of the text, and yet it is
copied, for the line break after it. -/
theorem C59_false : ∃ s s' : SS, Reach true {} (utf8 "a\n".toList) s ∧ Scan.scanNextToken {} s = (.ok (), s') ∧
    (pushedBy s s').map (·.wrap) = [.Token (.Scalar (bytes! "a") .Plain)] ∧ Scan.cows {} s = .ok [.Owned (bytes! "a")] ∧
    s.buf = bytes! "a" ++ s'.buf := by
  refine ⟨steps {} 1 ⟨{}, utf8 "a\n".toList, []⟩, (Scan.scanNextToken {} (steps {} 1 ⟨{}, utf8 "a\n".toList, []⟩)).2, reach_steps 1 .start (by decide +kernel), ?_, ?_⟩
  · exact Prod.ext (by decide +kernel) rfl
  · exact ⟨by decide +kernel, by decide +kernel, by decide +kernel⟩

/-! ### Cases -/

/-- The state after `n` steps, the contents added by the next step, and the `Cow`s. -/
def cowsAfter (text : String) (n : Nat) : List (List Str) × Out ScanError (List Cow) :=
  let s := steps {} n ⟨{}, utf8 text.toList, []⟩
  (((pushedBy s (Scan.scanNextToken {} s).2).map fun e => match e.wrap with | .Token t => contents t | _ => []), Scan.cows {} s)

/-- A quoted scalar, without and with something to resolve: the state is one `Reach` has. -/
example : Reach true {} (utf8 "\"a b\" x".toList) (steps {} 1 ⟨{}, utf8 "\"a b\" x".toList, []⟩) ∧
    (Scan.scanNextToken {} (steps {} 1 ⟨{}, utf8 "\"a b\" x".toList, []⟩)).1 = .ok () ∧
    cowsAfter "\"a b\" x" 1 = ([[bytes! "a b"]], .ok [.Borrowed 1 4]) :=
  ⟨reach_steps 1 .start (by decide +kernel), by decide +kernel, by decide +kernel⟩
example : cowsAfter "'a''b' x" 1 = ([[bytes! "a'b"]], .ok [.Owned (bytes! "a'b")]) := by decide +kernel
example : cowsAfter "\"a\n b\" x" 1 = ([[bytes! "a b"]], .ok [.Owned (bytes! "a b")]) := by decide +kernel
example : Verbatim false (bytes! "a b") (bytes! "\" x") := by
  refine ⟨by decide, ?_⟩
  have := sameLine_append (p := bytes! "a") (q := bytes! " b") (t := bytes! "\" x")
  refine this.2 ⟨sameLine_one.2 (by decide), ?_⟩
  refine (sameLine_append (p := bytes! " ") (q := bytes! "b") (t := bytes! "\" x")).2 ⟨sameLine_one.2 (by decide), sameLine_one.2 (by decide)⟩

/-- Plain scalars: `a b` before `:` is borrowed; two lines are not. -/
example : Reach true {} (utf8 "a b: c".toList) (steps {} 1 ⟨{}, utf8 "a b: c".toList, []⟩) ∧
    (Scan.scanNextToken {} (steps {} 1 ⟨{}, utf8 "a b: c".toList, []⟩)).1 = .ok () ∧
    cowsAfter "a b: c" 1 = ([[bytes! "a b"]], .ok [.Borrowed 0 3]) :=
  ⟨reach_steps 1 .start (by decide +kernel), by decide +kernel, by decide +kernel⟩
example : cowsAfter "a\n b" 1 = ([[bytes! "a b"]], .ok [.Owned (bytes! "a b")]) := by decide +kernel

/-- Anchors, tags and directives. -/
example : Reach true {} (utf8 "&a1 x".toList) (steps {} 1 ⟨{}, utf8 "&a1 x".toList, []⟩) ∧
    (Scan.scanNextToken {} (steps {} 1 ⟨{}, utf8 "&a1 x".toList, []⟩)).1 = .ok () ∧
    cowsAfter "&a1 x" 1 = ([[bytes! "a1"]], .ok [.Borrowed 1 3]) :=
  ⟨reach_steps 1 .start (by decide +kernel), by decide +kernel, by decide +kernel⟩
example : Reach true {} (utf8 "!e!t x".toList) (steps {} 1 ⟨{}, utf8 "!e!t x".toList, []⟩) ∧
    (Scan.scanNextToken {} (steps {} 1 ⟨{}, utf8 "!e!t x".toList, []⟩)).1 = .ok () ∧
    cowsAfter "!e!t x" 1 = ([[bytes! "!e!", bytes! "t"]], .ok [.Borrowed 0 3, .Borrowed 3 4]) :=
  ⟨reach_steps 1 .start (by decide +kernel), by decide +kernel, by decide +kernel⟩
example : cowsAfter "!e!t%21 x" 1 = ([[bytes! "!e!", bytes! "t!"]], .ok [.Owned (bytes! "!e!"), .Owned (bytes! "t!")]) := by decide +kernel
example : Reach true {} (utf8 "%TAG !e! t:x \n".toList) (steps {} 1 ⟨{}, utf8 "%TAG !e! t:x \n".toList, []⟩) ∧
    (Scan.scanNextToken {} (steps {} 1 ⟨{}, utf8 "%TAG !e! t:x \n".toList, []⟩)).1 = .ok () ∧
    cowsAfter "%TAG !e! t:x \n" 1 = ([[bytes! "!e!", bytes! "t:x"]], .ok [.Borrowed 5 8, .Borrowed 9 12]) :=
  ⟨reach_steps 1 .start (by decide +kernel), by decide +kernel, by decide +kernel⟩
example : cowsAfter "%TAG !e! t:%41 \n" 1 = ([[bytes! "!e!", bytes! "t:A"]], .ok [.Owned (bytes! "!e!"), .Owned (bytes! "t:A")]) := by decide +kernel

/-- Block scalars; the state of `blockExample` meets the hypotheses of `C59_block`. -/
example : cowsAfter "- |\n  a b\n- c" 2 = ([[bytes! "a b\n"]], .ok [.Borrowed 4 8]) := by decide +kernel
example : cowsAfter "- |+\n  a b\n\n- c" 2 = ([[bytes! "a b\n\n"]], .ok [.Owned (bytes! "a b\n\n")]) := by decide +kernel
example : ∃ l, Scan.cows {} blockExample = .ok l ∧ AllOwned l := by
  refine ⟨[.Owned (bytes! "\na b\n c\n\nd\n")], by decide +kernel, ?_⟩
  intro x hx
  exact ⟨_, List.mem_singleton.1 hx⟩

end Yary
