import Verif.Proof.Scan.Since

/-! # Which text a token comes from -/

namespace Yary

open Spec

variable {opts : SFlags} {α β : Type}

/-- The token `tok` is what is scanned at the start of the text of `s`, and `c` is what follows. -/
inductive Scans (opts : SFlags) (s : SS) : MaybeToken → Cur → Prop where
  | anchor {t : Str} {tok : Token} {c : Cur} (isAlias : Bool) (h : s.buf = (if isAlias then b! '*' else b! '&') :: t)
      (hs : scanAnchor opts isAlias ⟨s.buf, {}⟩ = .ok (tok, c)) : Scans opts s (.Token tok) c
  | tag {t : Str} {tok : Token} {c : Cur} (h : s.buf = b! '!' :: t)
      (hs : scanNodeTag opts ⟨s.buf, {}⟩ = .ok (tok, c)) : Scans opts s (.Token tok) c
  | quoted {t : Str} {tok : MaybeToken} {c : Cur} (single : Bool) (h : s.buf = (if single then 0x27 else b! '"') :: t)
      (hs : scanFlow opts single ⟨s.buf, {}⟩ = .ok (tok, c)) : Scans opts s tok c
  | plain {tok : MaybeToken} {c : Cur} (h : PlainStart s.sc.context.isBlock ⟨s.buf, s.sc.stats⟩)
      (hs : scanPlain opts (levelSucc s.sc.context.level) s.sc.context.isBlock ⟨s.buf, s.sc.stats⟩ = .ok (tok, c))
      (hd : Scan.dispatch s.sc.context s.sc.stats.column s.buf = .plain) :
      Scans opts s tok c
  | block {t : Str} {tok : MaybeToken} {c : Cur} (fold : Bool) (h : s.buf = (if fold then b! '>' else b! '|') :: t)
      (hx : s.sc.context.isBlock = true)
      (hs : scanBlock opts (s.sc.context.level.getD 0) fold ⟨s.buf, s.sc.stats⟩ = .ok (tok, c)) :
      Scans opts s tok c
  | directive {t : Str} {tok : Token} {c : Cur} (h : s.buf = b! '%' :: t) (hc : s.sc.stats.column = 0)
      (hs : Scan.directiveToken opts ⟨s.buf, {}⟩ = .ok (tok, c)) : Scans opts s (.Token tok) c

/-- Neither the token of a node nor a directive. -/
def Other (e : TokenEntry) : Prop :=
  isNode e.wrap.marker = false ∧ e.wrap.marker ≠ .VersionDirective ∧ e.wrap.marker ≠ .TagDirective

/-- Such a token. -/
macro "other" : tactic => `(tactic| simp [Other, Spec.isNode, MaybeToken.marker, Marker.ofToken])

theorem other_end (r : Nat) : Other ⟨.Token .BlockEnd, r⟩ := by other

theorem other_start (map : Bool) (r : Nat) :
    Other ⟨.Token (if map then .BlockMappingStart else .BlockSequenceStart), r⟩ := by
  cases map <;> other

/-- The fetches of indicators. -/
theorem Adds.other {f : Scan.Fetch} (hf : f.isNode = false) (hd : f ≠ .directive) : Adds Other (Scan.run opts f) := by
  cases f <;> simp only [Scan.Fetch.isNode, Bool.true_eq_false] at hf <;> simp only [Scan.run]
  · exact absurd rfl hd
  · rename_i start
    exact (Adds.unroll other_end _).bind fun _ => Adds.removeKey.bind fun _ => (Adds.upd _).bind fun _ =>
      (Adds.advance _).bind fun _ => Adds.push fun r => by cases start <;> other
  · rename_i map
    exact (Adds.upd _).bind fun _ => (Adds.advance _).bind fun _ =>
      (Adds.push fun r => by cases map <;> other).bind fun _ => Adds.saveKey.bind fun _ => Adds.upd _
  · rename_i map
    exact Adds.removeKey.bind fun _ => Adds.get.bind fun _ => (Adds.lift _).bind fun _ =>
      (Adds.upd _).bind fun _ => (Adds.advance _).bind fun _ => Adds.push fun r => by cases map <;> other
  · exact Adds.removeKey.bind fun _ => (Adds.upd _).bind fun _ => (Adds.advance _).bind fun _ =>
      Adds.push fun r => by other
  · exact (Adds.get.bind fun _ => (Adds.rollHere (other_start _)).ite (Adds.fail _)).bind fun _ =>
      (Adds.upd _).bind fun _ => Adds.removeKey.bind fun _ => (Adds.upd _).bind fun _ =>
      (Adds.advance _).bind fun _ => Adds.push fun r => by other
  · exact Adds.get.bind fun _ => (Adds.get.bind fun _ =>
      ((Adds.fail _).ite (Adds.rollHere (other_start _))).ite (Adds.pure _)).bind fun _ =>
      Adds.removeKey.bind fun _ => (Adds.upd _).bind fun _ => (Adds.advance _).bind fun _ =>
      Adds.push fun r => by other
  · have bare : Adds Other Scan.valueBare :=
      Adds.get.bind fun _ => (Adds.get.bind fun _ => ((Adds.fail _).ite (Adds.rollHere (other_start _))).ite
      (Adds.pure _)).bind fun _ => Adds.upd _
    have saved (k : KeySave) : Adds Other (Scan.valueSaved k) :=
      (Adds.rollIndent (other_start _ _)).bind fun _ => (Adds.enqueue (by other)).bind fun _ => Adds.upd _
    refine Adds.bind (Adds.get.bind fun _ => (Adds.upd _).bind fun _ => Adds.pure _) fun k => Adds.bind ?_ fun _ =>
      (Adds.advance _).bind fun _ => Adds.push fun r => by other
    cases k with
    | none => exact bare
    | some k => exact (saved k).ite bare
  · exact Adds.fail _

theorem saveKey_ok {s s' : SS} (h : Scan.saveKey s = (.ok (), s')) :
    s'.sc.context = s.sc.context ∧ s'.sc.stats = s.sc.stats ∧ s'.buf = s.buf := by
  unfold Scan.saveKey at h
  replace h := bind_ok h
  obtain ⟨_, s1, h1, h⟩ := h
  obtain ⟨rfl, rfl⟩ := get_ok h1
  by_cases ha : s.sc.simpleKeyAllowed = true
  · rw [if_pos ha] at h
    replace h := bind_ok h
    obtain ⟨_, s2, h2, h⟩ := h
    have e1 := removeKey_ok h2
    have e2 := upd_ok h
    subst e1
    rw [e2]
    exact ⟨rfl, rfl, rfl⟩
  · rw [if_neg ha] at h
    have : s' = s := (congrArg Prod.snd h).symm
    rw [this]
    exact ⟨rfl, rfl, rfl⟩

theorem finish_ok {tok : MaybeToken} {c : Cur} {s s' : SS} (h : Scan.finish tok c s = (.ok (), s')) :
    s'.buf = c.buf ∧ s'.out = s.out ++ [⟨tok, s'.sc.stats.read⟩] ∧ s'.sc.context = s.sc.context := by
  unfold Scan.finish at h
  replace h := bind_ok h
  obtain ⟨_, s1, h1, h⟩ := h
  replace h := bind_ok h
  obtain ⟨_, s2, h2, h⟩ := h
  replace h := bind_ok h
  obtain ⟨_, s3, h3, h⟩ := h
  obtain ⟨rfl, rfl⟩ := get_ok h3
  replace h := bind_ok h
  obtain ⟨_, s4, h4, h⟩ := h
  replace h := bind_ok h
  obtain ⟨_, s5, h5, h⟩ := h
  obtain ⟨rfl, rfl⟩ := get_ok h5
  have e1 : s1.out = s.out := Adds.none Adds.saveKey h1
  have e2 := upd_ok h2
  have e4 := commit_ok h4
  have : s' = s4.put tok s4.sc.stats.read := (congrArg Prod.snd h).symm
  rw [this, e4, e2]
  simp [SS.put, SS.move, e1, saveKey_ok h1]

/-- The fetches of nodes and directives. -/
theorem run_scans {s s' : SS} (hs : Scan.run opts (Scan.dispatch s.sc.context s.sc.stats.column s.buf) s = (.ok (), s'))
    (hf : (Scan.dispatch s.sc.context s.sc.stats.column s.buf).isNode = true ∨
      Scan.dispatch s.sc.context s.sc.stats.column s.buf = .directive) :
    ∃ tok c l, Scans opts s tok c ∧ s'.buf = c.buf ∧ s'.out = s.out ++ l ++ [⟨tok, s'.sc.stats.read⟩] ∧
      (∀ e ∈ l, Other e) ∧
      (s'.sc.context = s.sc.context ∨ ∃ t u, tok = .Token t ∧ s.buf = b! '%' :: u ∧ Scan.directiveToken opts ⟨s.buf, {}⟩ = .ok (t, c)) := by
  have hd := Closed.dispatch_starts s.sc.context s.sc.stats.column s.buf
  have hp := Closed.dispatch_plain (x := s.sc.context) (column := s.sc.stats.column) (s := s.buf)
  have hcol : Scan.dispatch s.sc.context s.sc.stats.column s.buf = .directive → s.sc.stats.column = 0 := by
    unfold Scan.dispatch
    intro h
    rcases ite_or h with ⟨h, -⟩ | ⟨-, h⟩
    · simp only [Bool.and_eq_true, beq_iff_eq] at h
      exact h.2
    · exfalso
      clear hd hp hs hf
      iterate 12
        rcases ite_or h with ⟨-, h'⟩ | ⟨-, h'⟩
        · cases h'
        clear h
        rename _ => h
      cases h
  generalize hfe : Scan.dispatch s.sc.context s.sc.stats.column s.buf = f at hs hf hd hp hcol
  cases f with
  | anchor =>
    simp only [Scan.run, Scan.fetchAnchor] at hs
    replace hs := bind_ok hs
    obtain ⟨_, s1, h1, hs⟩ := hs
    obtain ⟨rfl, rfl⟩ := get_ok h1
    replace hs := bind_ok hs
    obtain ⟨⟨tok, c⟩, s1, h1, hs⟩ := hs
    obtain ⟨hsc, rfl⟩ := sub_ok h1
    obtain ⟨e1, e2, e3⟩ := finish_ok hs
    refine ⟨.Token tok, c, [], ?_, e1, by simpa using e2, by simp, .inl e3⟩
    obtain ⟨t, ht | ht⟩ := hd
    · exact .anchor false ht (by rw [ht] at hsc ⊢; exact hsc)
    · exact .anchor true ht (by rw [ht] at hsc ⊢; exact hsc)
  | tag =>
    simp only [Scan.run, Scan.fetchTag] at hs
    replace hs := bind_ok hs
    obtain ⟨⟨tok, c⟩, s1, h1, hs⟩ := hs
    obtain ⟨hsc, rfl⟩ := sub_ok h1
    obtain ⟨e1, e2, e3⟩ := finish_ok hs
    obtain ⟨t, ht⟩ := hd
    exact ⟨.Token tok, c, [], .tag ht hsc, e1, by simpa using e2, by simp, .inl e3⟩
  | quoted =>
    simp only [Scan.run, Scan.fetchFlowScalar] at hs
    replace hs := bind_ok hs
    obtain ⟨_, s1, h1, hs⟩ := hs
    obtain ⟨rfl, rfl⟩ := get_ok h1
    replace hs := bind_ok hs
    obtain ⟨⟨tok, c⟩, s1, h1, hs⟩ := hs
    obtain ⟨hsc, rfl⟩ := sub_ok h1
    obtain ⟨e1, e2, e3⟩ := finish_ok hs
    refine ⟨tok, c, [], ?_, e1, by simpa using e2, by simp, .inl e3⟩
    obtain ⟨t, ht | ht⟩ := hd
    · exact .quoted true ht (by rw [ht] at hsc ⊢; exact hsc)
    · exact .quoted false ht (by rw [ht] at hsc ⊢; exact hsc)
  | plain =>
    simp only [Scan.run, Scan.fetchPlainScalar] at hs
    replace hs := bind_ok hs
    obtain ⟨_, s1, h1, hs⟩ := hs
    obtain ⟨rfl, rfl⟩ := get_ok h1
    replace hs := bind_ok hs
    obtain ⟨⟨tok, c⟩, s1, h1, hs⟩ := hs
    obtain ⟨hsc, rfl⟩ := sub_ok h1
    replace hs := bind_ok hs
    obtain ⟨_, s1, h1, hs⟩ := hs
    replace hs := bind_ok hs
    obtain ⟨_, s2, h2, hs⟩ := hs
    replace hs := bind_ok hs
    obtain ⟨_, s3, h3, hs⟩ := hs
    have e1 := Adds.none Adds.saveKey h1
    have e2 := upd_ok h2
    have e3 := commit_ok h3
    have : s' = s3.put tok c.stats.read := (congrArg Prod.snd hs).symm
    refine ⟨tok, c, [], .plain (hp rfl _ rfl) hsc hfe, ?_, ?_, by simp, .inl ?_⟩
    · rw [this, e3]; rfl
    · rw [this, e3, e2]; simp [SS.put, SS.move, e1]
    · rw [this, e3, e2]; simp [SS.put, SS.move, saveKey_ok h1]
  | block fold =>
    simp only [Scan.run, Scan.fetchBlockScalar] at hs
    replace hs := bind_ok hs
    obtain ⟨_, s1, h1, hs⟩ := hs
    replace hs := bind_ok hs
    obtain ⟨_, s2, h2, hs⟩ := hs
    replace hs := bind_ok hs
    obtain ⟨_, s3, h3, hs⟩ := hs
    obtain ⟨rfl, rfl⟩ := get_ok h3
    replace hs := bind_ok hs
    obtain ⟨⟨tok, c⟩, s4, h4, hs⟩ := hs
    obtain ⟨hsc, rfl⟩ := sub_ok h4
    replace hs := bind_ok hs
    obtain ⟨_, s5, h5, hs⟩ := hs
    have e1 := removeKey_ok h1
    have e2 := upd_ok h2
    have e5 := commit_ok h5
    have : s' = s5.put tok c.stats.read := (congrArg Prod.snd hs).symm
    subst e1 e2
    obtain ⟨⟨t, ht⟩, hx⟩ := hd
    refine ⟨tok, c, [], .block fold ht (by simpa [Context.isBlock] using hx) hsc, ?_, ?_, by simp, .inl ?_⟩
    · rw [this, e5]; rfl
    · rw [this, e5]; simp [SS.put, SS.move, SS.setKey]
    · rw [this, e5]; simp [SS.put, SS.move, SS.setKey]
  | directive =>
    simp only [Scan.run, Scan.fetchDirective] at hs
    replace hs := bind_ok hs
    obtain ⟨⟨tok, c⟩, s1, h1, hs⟩ := hs
    obtain ⟨hsc, rfl⟩ := sub_ok h1
    replace hs := bind_ok hs
    obtain ⟨_, s1, h1, hs⟩ := hs
    replace hs := bind_ok hs
    obtain ⟨_, s2, h2, hs⟩ := hs
    replace hs := bind_ok hs
    obtain ⟨_, s3, h3, hs⟩ := hs
    replace hs := bind_ok hs
    obtain ⟨_, s4, h4, hs⟩ := hs
    obtain ⟨rfl, rfl⟩ := get_ok h4
    replace hs := bind_ok hs
    obtain ⟨_, s5, h5, hs⟩ := hs
    obtain ⟨l, e1, hl⟩ := Adds.of_eq (Adds.unroll other_end _) h1
    have e2 := Adds.none Adds.removeKey h2
    have e3 := Adds.none (Adds.upd _) h3
    have e5 := commit_ok h5
    have e6 := push_ok hs
    obtain ⟨t, ht⟩ := hd
    refine ⟨.Token tok, c, l, .directive ht (hcol rfl) hsc, ?_, ?_, hl, .inr ⟨tok, t, rfl, ht, hsc⟩⟩
    · rw [e6, e5]; rfl
    · rw [e6, e5]; simp [SS.put, SS.move, e3, e2, e1]
  | _ => simp [Scan.Fetch.isNode] at hf

/-- The token of a node, or a directive, that a step pushes is scanned from the text after the white
space, and what follows is left. -/
theorem step_fetch {s s' : SS} (hB : Before s) (hs : Scan.scanNextToken opts s = (.ok (), s')) {e : TokenEntry}
    (he : e ∈ pushedBy s s') (hm : ¬ Other e) :
    ∃ n s1 c, (s.sc.state ≠ .Start ∧ Scan.prepare opts s = (.ok (), s1) ∧ s1.buf ≠ [] ∧ s1.sc.state ≠ .Done) ∧
      Skips true s.buf n s1.buf ∧ Before s1 ∧ Scans opts s1 e.wrap c ∧ s'.buf = c.buf ∧ e.readAt = s'.sc.stats.read ∧
      (∃ p, s.buf = p ++ s1.buf ∧ s1.sc.stats = posAfter s.sc.stats p) ∧
      (s'.sc.context = s1.sc.context ∨ ∃ t u, e.wrap = .Token t ∧ s1.buf = b! '%' :: u ∧ Scan.directiveToken opts ⟨s1.buf, {}⟩ = .ok (t, c)) := by
  have none : (∃ l, s'.out = s.out ++ l ∧ ∀ x ∈ l, Other x) → False := by
    rintro ⟨l, h1, h2⟩
    unfold pushedBy at he
    rw [h1, List.drop_left] at he
    exact hm (h2 e he)
  by_cases hst : s.sc.state = .Start
  · exfalso
    unfold Scan.scanNextToken at hs
    replace hs := bind_ok hs
    obtain ⟨_, s1, h1, hs⟩ := hs
    obtain ⟨rfl, rfl⟩ := get_ok h1
    simp only [hst, beq_self_eq_true, ↓reduceIte] at hs
    exact none (Adds.of_eq ((Adds.upd _).bind fun _ => Adds.push fun r => by other) hs)
  · obtain ⟨s1, h1, h2⟩ := step_cases_live hs hst
    obtain ⟨hB1, -⟩ := prepare_ok hB h1
    obtain ⟨s2, h3, h4, h5⟩ := prepare_buf hB h1
    obtain ⟨n, p, g1, g2, g3, -⟩ := C14_line_change h3
    rw [← h4] at g1 g2
    rw [← h5] at g3
    obtain ⟨l, hl, hq⟩ := (Adds.prepare other_end).of_eq h1
    have cat : (∃ l, s'.out = s1.out ++ l ∧ ∀ x ∈ l, Other x) → False := by
      rintro ⟨l', e1, e2⟩
      refine none ⟨l ++ l', by rw [e1, hl, List.append_assoc], fun x hx => ?_⟩
      rcases List.mem_append.1 hx with hx | hx
      · exact hq x hx
      · exact e2 x hx
    rcases h2 with ⟨-, h2⟩ | ⟨hlive, h2⟩
    · exact (cat (Adds.of_eq (Adds.get.bind fun _ => (Adds.pure _).ite (((Adds.unroll other_end _).bind fun _ =>
        Adds.removeKey.bind fun _ => (Adds.upd _).bind fun _ => Adds.push fun r => by other).ite (Adds.pure _))) h2)).elim
    · by_cases hf : (Scan.dispatch s1.sc.context s1.sc.stats.column s1.buf).isNode = true ∨
          Scan.dispatch s1.sc.context s1.sc.stats.column s1.buf = .directive
      · obtain ⟨tok, c, l', hsc, hbuf, ho, hl', hcx⟩ := run_scans h2 hf
        unfold pushedBy at he
        rw [ho, hl, List.append_assoc, List.append_assoc, List.drop_left] at he
        have he' : e = ⟨tok, s'.sc.stats.read⟩ := by
          simp only [List.mem_append, List.mem_cons, List.not_mem_nil, or_false] at he
          rcases he with he | he | he
          · exact absurd (hq e he) hm
          · exact absurd (hl' e he) hm
          · exact he
        subst he'
        exact ⟨n, s1, c, ⟨hst, h1, hlive⟩, g1, hB1, hsc, hbuf, rfl, ⟨p, g2, g3⟩, hcx⟩
      · exact (cat (Adds.of_eq (Adds.other (by simpa using fun h => hf (.inl h)) fun h => hf (.inr h)) h2)).elim

/-- The token of a node, or a directive, that a step pushes is scanned from the text after the white
space, and what follows is left. -/
theorem step_scans {s s' : SS} (hB : Before s) (hs : Scan.scanNextToken opts s = (.ok (), s')) {e : TokenEntry}
    (he : e ∈ pushedBy s s') (hm : ¬ Other e) :
    ∃ n s1 c, Skips true s.buf n s1.buf ∧ Before s1 ∧ Scans opts s1 e.wrap c ∧ s'.buf = c.buf ∧ e.readAt = s'.sc.stats.read ∧
      (∃ p, s.buf = p ++ s1.buf ∧ s1.sc.stats = posAfter s.sc.stats p) ∧
      (s'.sc.context = s1.sc.context ∨ ∃ t u, e.wrap = .Token t ∧ s1.buf = b! '%' :: u ∧ Scan.directiveToken opts ⟨s1.buf, {}⟩ = .ok (t, c)) := by
  obtain ⟨n, s1, c, -, h⟩ := step_fetch hB hs he hm
  exact ⟨n, s1, c, h⟩

/-- A step scans a node or a directive, if the text after the white space starts with an indicator of
one. -/
theorem step_scans_at {s s' : SS} (hB : Before s) (hs : Scan.scanNextToken opts s = (.ok (), s'))
    (hst : s.sc.state ≠ .Start) (hd : s.sc.state ≠ .Done) {n : Nat} {b : Byte} {t : Str} (hsk : Skips true s.buf n (b :: t))
    (hb : b = b! '&' ∨ b = b! '*' ∨ b = b! '!' ∨ b = 0x27 ∨ b = b! '"') :
    ∃ s1 tok c, s1.buf = b :: t ∧ Before s1 ∧ Scans opts s1 tok c ∧ s'.buf = c.buf ∧
      (⟨tok, s'.sc.stats.read⟩ : TokenEntry) ∈ pushedBy s s' := by
  obtain ⟨s1, h1, h2⟩ := step_cases hs hst
  obtain ⟨hB1, -, hst1, -⟩ := prepare_ok hB h1
  obtain ⟨s2, h3, h4, -⟩ := prepare_buf hB h1
  obtain ⟨n', p, g1, -⟩ := C14_line_change h3
  rw [← h4] at g1
  have hbuf := (C14_unique g1 hsk).2
  obtain ⟨l, hl, hq⟩ := (Adds.prepare other_end).of_eq h1
  rcases h2 with ⟨hn, -⟩ | ⟨-, h2⟩
  · rcases hn with hn | hn
    · rw [hbuf] at hn; cases hn
    · exact absurd (hst1 ▸ hn) hd
  · have hf : (Scan.dispatch s1.sc.context s1.sc.stats.column s1.buf).isNode = true := by
      rw [hbuf]
      unfold Scan.dispatch
      rcases hb with rfl | rfl | rfl | rfl | rfl <;> simp [startsWith, startsMarker, Scan.Fetch.isNode]
    obtain ⟨tok, c, l', hsc, hbuf', ho, hl', -⟩ := run_scans h2 (.inl hf)
    refine ⟨s1, tok, c, hbuf, hB1, hsc, hbuf', ?_⟩
    unfold pushedBy
    rw [ho, hl, List.append_assoc, List.append_assoc, List.drop_left]
    simp

end Yary
