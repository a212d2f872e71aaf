import Verif.Spec.Signs
import Verif.Proof.Scan.Places
import Verif.Proof.Scan.Directives

/-! # The characters that stand for tokens -/

namespace Yary

open Spec

variable {opts : SFlags} {α β : Type}

theorem signEnds_iff {s : Str} : isWhiteSpaceZ s = true ↔ SignEnds s := isWhiteSpaceZ_iff

theorem startsMarker_iff {s : Str} : startsMarker s = true ↔ ∃ t, s = bytes! "---" ++ t ∨ s = bytes! "..." ++ t := by
  constructor
  · intro h
    unfold startsMarker at h
    split at h
    · exact ⟨_, .inl rfl⟩
    · exact ⟨_, .inr rfl⟩
    · cases h
  · rintro ⟨t, rfl | rfl⟩ <;> rfl

/-- What a choice of the scanner says about the text. -/
def Says (flow : Bool) (column : Nat) (s : Str) : Scan.Fetch → Prop
  | .directive => column = 0 ∧ ∃ t, s = b! '%' :: t
  | .marker start => column = 0 ∧ ∃ t, s = (if start then bytes! "---" else bytes! "...") ++ t ∧ SignEnds t
  | .flowStart map => ∃ t, s = (if map then b! '{' else b! '[') :: t
  | .flowEnd map => ∃ t, s = (if map then b! '}' else b! ']') :: t
  | .flowEntry => ∃ t, s = b! ',' :: t
  | .blockEntry => ∃ t, s = b! '-' :: t ∧ SignEnds t
  | .explicitKey => ∃ t, s = b! '?' :: t ∧ (flow = true ∨ SignEnds t)
  | .value => ∃ t, s = b! ':' :: t ∧ (flow = true ∨ SignEnds t)
  | .anchor => ∃ t, s = b! '&' :: t ∨ s = b! '*' :: t
  | .tag => ∃ t, s = b! '!' :: t
  | .block fold => flow = false ∧ ∃ t, s = (if fold then b! '>' else b! '|') :: t
  | .quoted => ∃ t, s = 0x27 :: t ∨ s = b! '"' :: t
  | .plain => PlainSign flow column s
  | .unknown => True

theorem plain_says {x : Context} {column : Nat} {s : Str} (h : Scan.dispatch x column s = .plain) : PlainSign x.isFlow column s := by
  have hst := Closed.dispatch_plain h { column := column } rfl
  unfold Scan.dispatch at h
  rcases ite_or h with ⟨_, h⟩ | ⟨h1, h⟩
  · cases h
  rcases ite_or h with ⟨_, h⟩ | ⟨h2, h⟩
  · cases h
  rcases ite_or h with ⟨_, h⟩ | ⟨h3, h⟩
  · cases h
  rcases ite_or h with ⟨_, h⟩ | ⟨h4, h⟩
  · cases h
  rcases ite_or h with ⟨_, h⟩ | ⟨h5, h⟩
  · cases h
  rcases ite_or h with ⟨_, h⟩ | ⟨h6, h⟩
  · cases h
  rcases ite_or h with ⟨_, h⟩ | ⟨h7, h⟩
  · cases h
  rcases ite_or h with ⟨_, h⟩ | ⟨h8, h⟩
  · cases h
  rcases ite_or h with ⟨_, h⟩ | ⟨h9, h⟩
  · cases h
  rcases ite_or h with ⟨_, h⟩ | ⟨h10, h⟩
  · cases h
  rcases ite_or h with ⟨_, h⟩ | ⟨h11, h⟩
  · cases h
  rcases ite_or h with ⟨_, h⟩ | ⟨h12, h⟩
  · cases h
  rcases ite_or h with ⟨hp, -⟩ | ⟨_, h⟩
  rotate_left
  · cases h
  unfold Scan.isPlainScalar at hp
  rw [hst.ws] at hp
  cases s with
  | nil => cases hp
  | cons b t =>
    simp only [startsWith_cons, List.drop_succ_cons, List.drop_zero, Bool.and_eq_true, Bool.or_eq_true, beq_iff_eq, not_and, not_or,
      Bool.not_eq_true] at h2 h3 h4 h5 h6 h7 h8
    simp only [Bool.false_eq_true, ↓reduceIte] at hp
    split at hp
    · cases hp
    rename_i hb
    split at hp
    · cases hp
    rename_i hc
    simp only [Bool.or_eq_true, Bool.and_eq_true, decide_eq_true_eq, not_or, not_and] at hb
    refine ⟨b, t, rfl, ?_, ?_, ?_, ?_, ?_⟩
    · obtain ⟨⟨⟨⟨⟨⟨⟨⟨⟨⟨⟨⟨⟨⟨⟨a1, a2⟩, a3⟩, a4⟩, a5⟩, a6⟩, a7⟩, a8⟩, a9⟩, -⟩, a11⟩, a12⟩, a13⟩, a14⟩, a15⟩, a16⟩ := hb
      intro hm
      rw [show (bytes! ",[]{}#&*!|>'\"%@`" : Str) = [b! ',', b! '[', b! ']', b! '{', b! '}', b! '#', b! '&', b! '*', b! '!', b! '|', b! '>',
        0x27, b! '"', b! '%', b! '@', b! '`'] from by decide +kernel] at hm
      simp only [List.mem_cons, List.not_mem_nil, or_false] at hm
      rcases hm with h | h | h | h | h | h | h | h | h | h | h | h | h | h | h | h
      · exact h5 h
      · exact h3.2 h
      · exact h4.2 h
      · exact h3.1 h
      · exact h4.1 h
      · exact a14 h
      · exact a2 h
      · exact a3 h
      · exact a4 h
      · exact a12 h
      · exact a13 h
      · exact a5 h
      · exact a6 h
      · exact a1 h
      · exact a15 h
      · exact a16 h
    · intro hw
      have := isWhiteSpaceZ_iff.2 (.inr hw)
      rw [hst.ws] at this
      cases this
    · rintro ⟨hc, u, hu, hue⟩
      have hd : isWhiteSpaceZ ((b :: t).drop 3) = true := by rcases hu with hu | hu <;> (rw [hu]; exact signEnds_iff.2 hue)
      have := hst.marker
      simp only [isDocumentIndicator, hc, beq_self_eq_true, Bool.true_and, startsMarker_iff.2 ⟨u, hu⟩] at this
      rw [hd] at this
      cases this
    · intro hd
      refine ⟨fun he => ?_, fun hf hs => hc ?_⟩
      · have := h6 hd
        rw [signEnds_iff.2 he] at this
        cases this
      · simp only [hd, decide_true, Bool.or_true, Bool.true_and]
        have : flowIndicator t = true := by
          obtain ⟨c, u, rfl, hm⟩ := hs
          simpa [flowIndicator, startsWith_cons, or_assoc] using hm
        simp [Scan.isPlainSafe, this, Context.isBlock, show ¬ x.flow = 0 by simpa [Context.isFlow] using hf]
    · rintro (hd | hd)
      · have := h7 hd
        exact ⟨this.1, fun he => by rw [signEnds_iff.2 he] at this; cases this.2⟩
      · have := h8 hd
        exact ⟨this.2, fun he => by rw [signEnds_iff.2 he] at this; cases this.1⟩

theorem dispatch_says (x : Context) (column : Nat) (s : Str) : Says x.isFlow column s (Scan.dispatch x column s) := by
  have hp := fun h => plain_says (x := x) (column := column) (s := s) h
  unfold Scan.dispatch at hp ⊢
  by_cases h1 : (startsWith s b! '%' && column == 0) = true
  · rw [if_pos h1]
    simp only [Bool.and_eq_true, beq_iff_eq] at h1
    exact ⟨h1.2, startsWith_iff.1 h1.1⟩
  rw [if_neg h1] at hp ⊢
  by_cases h2 : (startsMarker s && (column == 0 && isWhiteSpaceZ (s.drop 3))) = true
  · rw [if_pos h2]
    simp only [Bool.and_eq_true, beq_iff_eq] at h2
    obtain ⟨t, rfl | rfl⟩ := startsMarker_iff.1 h2.1
    · exact ⟨h2.2.1, t, rfl, signEnds_iff.1 h2.2.2⟩
    · exact ⟨h2.2.1, t, rfl, signEnds_iff.1 h2.2.2⟩
  rw [if_neg h2] at hp ⊢
  by_cases h3 : (startsWith s b! '{' || startsWith s b! '[') = true
  · rw [if_pos h3]
    exact Closed.starts_pair h3
  rw [if_neg h3] at hp ⊢
  by_cases h4 : (startsWith s b! '}' || startsWith s b! ']') = true
  · rw [if_pos h4]
    exact Closed.starts_pair h4
  rw [if_neg h4] at hp ⊢
  by_cases h5 : startsWith s b! ',' = true
  · rw [if_pos h5]
    exact startsWith_iff.1 h5
  rw [if_neg h5] at hp ⊢
  by_cases h6 : (startsWith s b! '-' && isWhiteSpaceZ (s.drop 1)) = true
  · rw [if_pos h6]
    simp only [Bool.and_eq_true] at h6
    obtain ⟨t, rfl⟩ := startsWith_iff.1 h6.1
    exact ⟨t, rfl, signEnds_iff.1 h6.2⟩
  rw [if_neg h6] at hp ⊢
  by_cases h7 : (startsWith s b! '?' && (x.isFlow || isWhiteSpaceZ (s.drop 1))) = true
  · rw [if_pos h7]
    simp only [Bool.and_eq_true, Bool.or_eq_true] at h7
    obtain ⟨t, rfl⟩ := startsWith_iff.1 h7.1
    exact ⟨t, rfl, h7.2.imp id signEnds_iff.1⟩
  rw [if_neg h7] at hp ⊢
  by_cases h8 : (startsWith s b! ':' && (isWhiteSpaceZ (s.drop 1) || x.isFlow)) = true
  · rw [if_pos h8]
    simp only [Bool.and_eq_true, Bool.or_eq_true] at h8
    obtain ⟨t, rfl⟩ := startsWith_iff.1 h8.1
    exact ⟨t, rfl, h8.2.symm.imp id signEnds_iff.1⟩
  rw [if_neg h8] at hp ⊢
  by_cases h9 : (startsWith s b! '&' || startsWith s b! '*') = true
  · rw [if_pos h9]
    simp only [Bool.or_eq_true] at h9
    rcases h9 with h | h
    · obtain ⟨t, h⟩ := startsWith_iff.1 h; exact ⟨t, .inl h⟩
    · obtain ⟨t, h⟩ := startsWith_iff.1 h; exact ⟨t, .inr h⟩
  rw [if_neg h9] at hp ⊢
  by_cases h10 : startsWith s b! '!' = true
  · rw [if_pos h10]
    exact startsWith_iff.1 h10
  rw [if_neg h10] at hp ⊢
  by_cases h11 : ((startsWith s b! '|' || startsWith s b! '>') && x.isBlock) = true
  · rw [if_pos h11]
    simp only [Bool.and_eq_true] at h11
    exact ⟨by have := h11.2; simp only [Context.isBlock, Context.isFlow] at this ⊢; rw [this]; rfl,
      Closed.starts_pair (by rw [Bool.or_comm]; exact h11.1)⟩
  rw [if_neg h11] at hp ⊢
  by_cases h12 : (startsWith s 0x27 || startsWith s b! '"') = true
  · rw [if_pos h12]
    simp only [Bool.or_eq_true] at h12
    rcases h12 with h | h
    · obtain ⟨t, h⟩ := startsWith_iff.1 h; exact ⟨t, .inl h⟩
    · obtain ⟨t, h⟩ := startsWith_iff.1 h; exact ⟨t, .inr h⟩
  rw [if_neg h12] at hp ⊢
  by_cases h13 : Scan.isPlainScalar x.isBlock s = true
  · rw [if_pos h13] at hp ⊢
    exact hp rfl
  · rw [if_neg h13]
    trivial

/-! ### The tokens -/

theorem flow_stands {single : Bool} {q : Byte} {t : Str} {m : MStats} (hb : isBreak (q :: t) = false) {tok : MaybeToken} {c : Cur}
    (h : scanFlow opts single ⟨q :: t, m⟩ = .ok (tok, c)) :
    (∃ v, tok = .Token (.Scalar v (flowStyle single))) ∨ ∃ o s st, tok = .Deferred (.flow o s st single) := by
  rcases scanFlow_style hb h with ⟨-, v, rfl, -⟩ | ⟨hl, l, rfl⟩
  · exact .inl ⟨v, rfl⟩
  · refine .inr ?_
    unfold scanFlow at h
    rw [if_pos hl] at h
    obtain ⟨⟨l', c'⟩, h1, h⟩ := Out.bind_eq_ok.1 h
    simp only [Out.ok.injEq, Prod.mk.injEq, MaybeToken.Deferred.injEq] at h
    obtain ⟨rfl, rfl⟩ := h
    unfold scanFlowLazy at h1
    obtain ⟨_, -, h1⟩ := Out.bind_eq_ok.1 h1
    obtain ⟨_, -, h1⟩ := Out.bind_eq_ok.1 h1
    obtain ⟨_, -, h1⟩ := Out.bind_eq_ok.1 h1
    obtain ⟨_, -, h1⟩ := Out.bind_eq_ok.1 h1
    simp only [Out.ok.injEq, Prod.mk.injEq] at h1
    rw [← h1.1]
    exact ⟨_, _, _, rfl⟩

theorem plain_stands {indent : Nat} {block : Bool} {c0 c : Cur} {tok : MaybeToken} (hst : PlainStart block c0)
    (h : scanPlain opts indent block c0 = .ok (tok, c)) :
    (∃ v, tok = .Token (.Scalar v .Plain)) ∨ ∃ o s st i b, tok = .Deferred (.plain o s st i b) := by
  rcases scanPlain_style hst h with ⟨-, v, rfl, -⟩ | ⟨hl, l, rfl⟩
  · exact .inl ⟨v, rfl⟩
  · refine .inr ?_
    unfold scanPlain at h
    rw [if_pos hl] at h
    obtain ⟨⟨l', c'⟩, h1, h⟩ := Out.bind_eq_ok.1 h
    simp only [Out.ok.injEq, Prod.mk.injEq, MaybeToken.Deferred.injEq] at h
    obtain ⟨rfl, rfl⟩ := h
    rw [scanPlainLazy_eq] at h1
    obtain ⟨_, -, h1⟩ := Out.bind_eq_ok.1 h1
    obtain ⟨_, -, h1⟩ := Out.bind_eq_ok.1 h1
    obtain ⟨_, -, h1⟩ := Out.bind_eq_ok.1 h1
    simp only [Out.ok.injEq, Prod.mk.injEq] at h1
    rw [← h1.1]
    exact ⟨_, _, _, _, _, rfl⟩

theorem block_stands {base : Nat} {fold : Bool} {c0 c : Cur} {tok : MaybeToken} (hne : c0.buf ≠ []) (hnb : isBreak c0.buf = false)
    (h : scanBlock opts base fold c0 = .ok (tok, c)) :
    (∃ v, tok = .Token (.Scalar v (blockStyle fold))) ∨ ∃ o s st i, tok = .Deferred (.block o s st i fold) := by
  rcases scanBlock_style hne hnb h with ⟨-, v, rfl, -⟩ | ⟨hl, l, rfl⟩
  · exact .inl ⟨v, rfl⟩
  · refine .inr ?_
    unfold scanBlock at h
    rw [if_pos hl] at h
    obtain ⟨⟨l', c'⟩, h1, h⟩ := Out.bind_eq_ok.1 h
    simp only [Out.ok.injEq, Prod.mk.injEq, MaybeToken.Deferred.injEq] at h
    obtain ⟨rfl, rfl⟩ := h
    unfold scanBlockLazy at h1
    obtain ⟨_, -, h1⟩ := Out.bind_eq_ok.1 h1
    obtain ⟨_, -, h1⟩ := Out.bind_eq_ok.1 h1
    obtain ⟨_, -, h1⟩ := Out.bind_eq_ok.1 h1
    obtain ⟨_, -, h1⟩ := Out.bind_eq_ok.1 h1
    simp only [Out.ok.injEq, Prod.mk.injEq] at h1
    rw [← h1.1]
    exact ⟨_, _, _, _, rfl⟩

/-- The tokens a fetch pushes, and the characters. -/
theorem run_stands {f : Scan.Fetch} {s s' : SS} {flow : Bool} {column : Nat} (hd : Says flow column s.buf f)
    (hp : f = .plain → PlainStart s.sc.context.isBlock ⟨s.buf, s.sc.stats⟩) (hs : Scan.run opts f s = (.ok (), s')) :
    ∃ l e, s'.out = s.out ++ l ++ [e] ∧ (∀ x ∈ l, Structure (f == .value) x) ∧ Stands flow column s.buf e.wrap := by
  cases f with
  | directive =>
    obtain ⟨hc, t, ht⟩ := hd
    refine Puts.sub hs fun ⟨tok, c⟩ h => ?_
    rw [ht] at h
    have := directiveToken_par _ h
    have hk : Stands flow column s.buf (.Token tok) := by
      rw [ht]
      generalize b! '%' :: t = w at this
      simp only at this
      cases this with
      | version => exact ⟨hc, _, rfl⟩
      | tag => exact ⟨hc, _, rfl⟩
    exact Puts.bind (Adds.unroll (structure_end _) _) fun _ => Puts.bind Adds.removeKey fun _ => Puts.bind (Adds.upd _) fun _ =>
      Puts.bind Adds.get fun _ => Puts.bind (Adds.commit _ _) fun _ => Puts.push hk
  | marker start =>
    exact (Puts.bind (Adds.unroll (structure_end _) _) fun _ => Puts.bind Adds.removeKey fun _ => Puts.bind (Adds.upd _) fun _ =>
      Puts.bind (Adds.advance _) fun _ => Puts.push (by cases start <;> exact hd)) _ _ _ hs
  | flowStart map =>
    exact (Puts.bind (Adds.upd _) fun _ => Puts.bind (Adds.advance _) fun _ => Puts.before (Puts.push (by cases map <;> exact hd)) fun _ =>
      Adds.saveKey.bind fun _ => Adds.upd _) _ _ _ hs
  | flowEnd map =>
    exact (Puts.bind Adds.removeKey fun _ => Puts.bind Adds.get fun _ => Puts.bind (Adds.lift _) fun _ => Puts.bind (Adds.upd _) fun _ =>
      Puts.bind (Adds.advance _) fun _ => Puts.push (by cases map <;> exact hd)) _ _ _ hs
  | flowEntry =>
    exact (Puts.bind Adds.removeKey fun _ => Puts.bind (Adds.upd _) fun _ => Puts.bind (Adds.advance _) fun _ =>
      Puts.push (P := Stands flow column s.buf) (t := .FlowEntry) hd) _ _ _ hs
  | blockEntry =>
    exact (Puts.bind (Adds.get.bind fun _ => (Adds.rollHere (structure_start _ _)).ite (Adds.fail _)) fun _ => Puts.bind (Adds.upd _) fun _ =>
      Puts.bind Adds.removeKey fun _ => Puts.bind (Adds.upd _) fun _ => Puts.bind (Adds.advance _) fun _ =>
      Puts.push (P := Stands flow column s.buf) (t := .BlockEntry) hd) _ _ _ hs
  | explicitKey =>
    exact (Puts.bind Adds.get fun _ => Puts.bind (Adds.get.bind fun _ =>
      ((Adds.fail _).ite (Adds.rollHere (structure_start _ _))).ite (Adds.pure _)) fun _ =>
      Puts.bind Adds.removeKey fun _ => Puts.bind (Adds.upd _) fun _ => Puts.bind (Adds.advance _) fun _ =>
      Puts.push (P := Stands flow column s.buf) (t := .Key) hd) _ _ _ hs
  | value =>
    have bare : Adds (Structure (Scan.Fetch.value == .value)) Scan.valueBare :=
      Adds.get.bind fun _ => (Adds.get.bind fun _ => ((Adds.fail _).ite (Adds.rollHere (structure_start _ _))).ite
      (Adds.pure _)).bind fun _ => Adds.upd _
    have saved (k : KeySave) : Adds (Structure (Scan.Fetch.value == .value)) (Scan.valueSaved k) :=
      (Adds.rollIndent (structure_start _ _ _)).bind fun _ => (Adds.enqueue (.inr (.inr (.inr ⟨rfl, rfl⟩)))).bind fun _ => Adds.upd _
    refine (Puts.bind (Adds.get.bind fun _ => (Adds.upd _).bind fun _ => Adds.pure _) fun k => Puts.bind ?_ fun _ =>
      Puts.bind (Adds.advance _) fun _ => Puts.push (P := Stands flow column s.buf) (t := .Value) hd) _ _ _ hs
    cases k with
    | none => exact bare
    | some k => exact (saved k).ite bare
  | anchor =>
    simp only [Scan.run, Scan.fetchAnchor] at hs
    obtain ⟨_, s1, h1, hs⟩ := bind_ok hs
    obtain ⟨rfl, rfl⟩ := get_ok h1
    refine Puts.sub hs fun ⟨tok, c⟩ h => Puts.finish ?_
    obtain ⟨t, ht | ht⟩ := hd
    · rw [ht] at h
      obtain ⟨-, name, -, -, -, -, hk⟩ := (scanAnchor_sat (P := True) (.inl trivial) (by decide)).of_ok h
      simp only [startsWith_cons] at hk
      subst hk
      exact ⟨t, ht⟩
    · rw [ht] at h
      obtain ⟨-, name, -, -, -, -, hk⟩ := (scanAnchor_sat (P := True) (.inl trivial) (by decide)).of_ok h
      simp only [startsWith_cons] at hk
      subst hk
      exact ⟨t, ht⟩
  | tag =>
    obtain ⟨t, ht⟩ := hd
    simp only [Scan.run, Scan.fetchTag] at hs
    refine Puts.sub hs fun ⟨tok, c⟩ h => Puts.finish ?_
    rw [ht] at h
    obtain ⟨-, -, -, a, b, hk⟩ := (scanNodeTag_sat (P := True) (.inl trivial) (.inl trivial)).of_ok h
    simp only at hk
    subst hk
    exact ⟨t, ht⟩
  | block fold =>
    obtain ⟨hfl, t, ht⟩ := hd
    simp only [Scan.run, Scan.fetchBlockScalar] at hs
    obtain ⟨_, s1, h1, hs⟩ := bind_ok hs
    obtain ⟨_, s2, h2, hs⟩ := bind_ok hs
    obtain ⟨_, s3, h3, hs⟩ := bind_ok hs
    obtain ⟨rfl, rfl⟩ := get_ok h3
    have e1 := removeKey_ok h1
    have e2 := upd_ok h2
    have hb : s2.buf = s.buf := by rw [e2, e1]; rfl
    have ho : s2.out = s.out := by rw [e2, e1]; rfl
    rw [← ho]
    refine Puts.sub hs fun ⟨tok, c⟩ h => Puts.bind (Adds.commit _ _) fun _ => Puts.enqueue ?_
    rcases block_stands (by simp only [hb, ht]; simp) (by simp only [hb, ht]; exact NoBrk.isBreak (by cases fold <;> decide)) h with
      ⟨v, h⟩ | ⟨o, s', st, i, h⟩
    all_goals
      subst h
      cases fold <;> exact ⟨hfl, t, ht⟩
  | quoted =>
    simp only [Scan.run, Scan.fetchFlowScalar] at hs
    obtain ⟨_, s1, h1, hs⟩ := bind_ok hs
    obtain ⟨rfl, rfl⟩ := get_ok h1
    refine Puts.sub hs fun ⟨tok, c⟩ h => Puts.finish ?_
    obtain ⟨t, ht | ht⟩ := hd
    all_goals
      rw [ht] at h
      rcases flow_stands (NoBrk.isBreak (by decide)) h with ⟨v, h⟩ | ⟨o, s', st, h⟩
      all_goals
        simp only [startsWith_cons] at h
        subst h
        exact ⟨t, ht⟩
  | plain =>
    simp only [Scan.run, Scan.fetchPlainScalar] at hs
    obtain ⟨_, s1, h1, hs⟩ := bind_ok hs
    obtain ⟨rfl, rfl⟩ := get_ok h1
    refine Puts.sub hs fun ⟨tok, c⟩ h => Puts.bind Adds.saveKey fun _ => Puts.bind (Adds.upd _) fun _ => Puts.bind (Adds.commit _ _) fun _ =>
      Puts.enqueue ?_
    rcases plain_stands (hp rfl) h with ⟨v, h⟩ | ⟨o, s', st, i, b, h⟩
    all_goals
      subst h
      exact hd
  | unknown => simp [Scan.run, SO.fail] at hs

end Yary
