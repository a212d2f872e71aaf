import Verif.Proof.Scan.Exact
import Verif.Proof.Deliver

/-! # Keys found after the fact -/

namespace Yary

open Spec

variable {opts : SFlags}

/-- What is true of all states of a scanner without errors. -/
theorem reach_keeps {I : SS → Prop} {base : Str} (hC : Closed I)
    (hO : NoOffset I) (hnext : ∀ s, I s → I ⟨s.sc, s.buf, []⟩)
    (hend : ∀ s, I s → s.sc.key = none →
      I ({ s with sc := { s.sc with state := .Done } }.put (.Token .StreamEnd) s.sc.stats.read))
    (h0 : I ⟨{}, base, []⟩) {s : SS} (h : Reach false opts base s) : I s := by
  induction h with
  | start => exact h0
  | step h hd hs ih =>
    rcases (hC.scanNextToken (P := True) (opts := opts) (.inl trivial) ih hd).of_ok hs with h | ⟨-, h⟩
    · exact h.1
    · obtain @⟨s, h, -, -, hk, -⟩ := h
      exact hend s h hk
  | fail he => cases he
  | more he => cases he
  | hand h ih => exact hnext _ ih
  | offset n h ih => exact hO n ih

/-- The saved key is not on a later line than the current position. -/
structure Above (s : SS) : Prop where
  valid : validUtf8 s.buf = true
  key : ∀ k, s.sc.key = some k → k.stats.lines ≤ s.sc.stats.lines

theorem Above.same {s s' : SS} (h : Above s) (h1 : s'.buf = s.buf) (h2 : s'.sc.stats = s.sc.stats)
    (h3 : s'.sc.key = s.sc.key) : Above s' := ⟨h1 ▸ h.valid, by rw [h2, h3]; exact h.key⟩

theorem Above.move' {s s' : SS} {c : Cur} (h : Above s) (hc : Hops s c) (h1 : s'.buf = c.buf)
    (h2 : s'.sc.stats = c.stats) (h3 : s'.sc.key = s.sc.key) : Above s' := by
  refine ⟨h1 ▸ hc.valid, ?_⟩
  rw [h2, h3]
  intro k hk
  exact Nat.le_trans (h.key k hk) hc.moves.lines_le

theorem closed_above : Closed Above where
  valid h := h.valid
  flags _ h := h.same rfl rfl rfl
  first h _ := h.same rfl rfl rfl
  noKey h := ⟨h.valid, fun k hk => by cases hk⟩
  stale h h1 := ⟨h.valid, fun k hk => by
    simp only [SS.setKey, Option.some.injEq] at hk
    subst hk
    have := h.key _ h1; exact this⟩
  save r h := ⟨h.valid, fun k hk => by
    simp only [SS.setKey, Option.some.injEq] at hk
    subst hk
    exact Nat.le_refl _⟩
  move h h1 := h.move' h1 rfl rfl rfl
  node h h1 _ _ _ := h.move' h1 rfl rfl rfl
  plain h _ _ := h.same rfl rfl rfl
  boundary h _ _ _ _ := h.same rfl rfl rfl
  pop _ h _ := h.same rfl rfl rfl
  roll _ _ _ h _ := h.same rfl rfl rfl
  touch _ h _ := h.same rfl rfl rfl
  rollKey _ _ h _ _ _ _ _ := h.same rfl rfl rfl
  useKey h _ _ _ _ := h.same rfl rfl rfl
  flowStart _ h := h.same rfl rfl rfl
  flowEnd _ h _ _ := h.same rfl rfl rfl

theorem reach_above {errs : Bool} {base : Str} (hv : validUtf8 base = true) {s : SS}
    (h : Reach errs opts base s) : Above s := by
  induction h with
  | start => exact ⟨hv, fun k hk => (by cases hk)⟩
  | step h hd hs ih =>
    rcases (closed_above.scanNextToken (P := True) (opts := opts) (.inl trivial) ih hd).of_ok hs with h | ⟨-, h⟩
    · exact h.1
    · obtain @⟨s, h, -, -, -, -⟩ := h
      exact h.same rfl rfl rfl
  | @fail s s' e _ h hd hs ih =>
    have := closed_above.scanNextToken (P := True) (opts := opts) (.inl trivial) ih hd
    simp only [Holds, hs] at this
    exact ⟨ih.valid, this.key⟩
  | more _ h hd hs ih =>
    have := closed_above.scanNextToken (P := True) (opts := opts) (.inl trivial) ih hd
    simpa only [Holds, hs] using this
  | hand h ih => exact ⟨ih.valid, ih.key⟩
  | offset n h ih => exact ⟨ih.valid, ih.key⟩

/-- The statistics of the saved key are those of a part of the text read. -/
structure KeyMarked (base : Str) (s : SS) : Prop where
  valid : validUtf8 s.buf = true
  suffix : ∃ p, base = p ++ s.buf
  exact : s.buf = [] ∨ (Reads ⟨base, {}⟩ ⟨s.buf, s.sc.stats⟩ ∧ ∀ k, s.sc.key = some k →
    ∃ b, Reads ⟨base, {}⟩ ⟨b, k.stats⟩ ∧ Reads ⟨b, k.stats⟩ ⟨s.buf, s.sc.stats⟩)

theorem KeyMarked.same {base : Str} {s s' : SS} (h : KeyMarked base s) (h1 : s'.buf = s.buf)
    (h2 : s'.sc.stats = s.sc.stats) (h3 : s'.sc.key = s.sc.key) : KeyMarked base s' :=
  ⟨h1 ▸ h.valid, h1 ▸ h.suffix, by rw [h1, h2, h3]; exact h.exact⟩

theorem KeyMarked.move' {base : Str} (hb : ∀ p t, base ≠ p ++ b! '!' :: b! '<' :: t) {s s' : SS} {c : Cur}
    (h : KeyMarked base s) (hc : Hops s c) (h1 : s'.buf = c.buf) (h2 : s'.sc.stats = c.stats)
    (h3 : s'.sc.key = s.sc.key) : KeyMarked base s' := by
  obtain ⟨p, hp⟩ := h.suffix
  obtain ⟨q, hq⟩ := hc.moves.suffix
  simp only at hq
  refine ⟨h1 ▸ hc.valid, ⟨p ++ q, by rw [h1, List.append_assoc, ← hq, hp]⟩, ?_⟩
  rw [h1, h2, h3]
  rcases hc.exact with hr | hr | ⟨⟨t, ht⟩, -⟩
  · rcases h.exact with h' | ⟨h', h''⟩
    · rw [h'] at hq
      exact .inl (List.append_eq_nil_iff.1 hq.symm).2
    · refine .inr ⟨h'.trans hr, fun k hk => ?_⟩
      obtain ⟨b, g1, g2⟩ := h'' k hk
      exact ⟨b, g1, g2.trans hr⟩
  · exact .inl hr
  · exact absurd (by rw [hp, ht]) (hb p t)

theorem closed_keyMarked {base : Str} (hb : ∀ p t, base ≠ p ++ b! '!' :: b! '<' :: t) : Closed (KeyMarked base) where
  valid h := h.valid
  flags _ h := h.same rfl rfl rfl
  first h _ := h.same rfl rfl rfl
  noKey h := ⟨h.valid, h.suffix, h.exact.imp id fun h => ⟨h.1, fun k hk => by cases hk⟩⟩
  stale h h1 := ⟨h.valid, h.suffix, h.exact.imp id fun h => ⟨h.1, fun k hk => by
    simp only [SS.setKey, Option.some.injEq] at hk
    subst hk
    have := h.2 _ h1; exact this⟩⟩
  save r h := ⟨h.valid, h.suffix, h.exact.imp id fun h => ⟨h.1, fun k hk => by
    simp only [SS.setKey, Option.some.injEq] at hk
    subst hk
    exact ⟨_, h.1, .refl _⟩⟩⟩
  move h h1 := h.move' hb h1 rfl rfl rfl
  node h h1 _ _ _ := h.move' hb h1 rfl rfl rfl
  plain h _ _ := h.same rfl rfl rfl
  boundary h _ _ _ _ := h.same rfl rfl rfl
  pop _ h _ := h.same rfl rfl rfl
  roll _ _ _ h _ := h.same rfl rfl rfl
  touch _ h _ := h.same rfl rfl rfl
  rollKey _ _ h _ _ _ _ _ := h.same rfl rfl rfl
  useKey h _ _ _ _ := h.same rfl rfl rfl
  flowStart _ h := h.same rfl rfl rfl
  flowEnd _ h _ _ := h.same rfl rfl rfl

theorem reach_keyMarked {base : Str} (hb : ∀ p t, base ≠ p ++ b! '!' :: b! '<' :: t) (hv : validUtf8 base = true)
    {s : SS} (h : Reach false opts base s) : KeyMarked base s :=
  reach_keeps (closed_keyMarked hb) (fun _ h => ⟨h.valid, h.suffix, h.exact⟩)
    (fun _ h => ⟨h.valid, h.suffix, h.exact⟩) (fun _ h _ => ⟨h.valid, h.suffix, h.exact⟩)
    ⟨hv, ⟨[], rfl⟩, .inr ⟨.refl _, fun k hk => by cases hk⟩⟩ h

/-- Reading on one line meets no line break. -/
theorem Reads.noBreak {c c' : Cur} (h : Reads c c') (hl : c'.stats.lines ≤ c.stats.lines) :
    ∀ i, i + c'.buf.length < c.buf.length → isBreak (c.buf.drop i) = false := by
  induction h with
  | refl => intro i hi; omega
  | @byte b t m c' hb h ih =>
    intro i hi
    cases i with
    | zero => simpa using hb
    | succ i =>
      simp only [List.drop_succ_cons]
      exact ih (by simpa [MStats.update] using hl) i (by simp at hi ⊢; omega)
  | @line c c' hb h ih =>
    exfalso
    have := h.moves.lines_le
    simp [MStats.update] at this
    omega

/-- The step that finds a key after the fact: how it ends, and where the `:` is. -/
structure Retro (s s' : SS) (k : KeySave) (q st : List TokenEntry) (m : MStats) : Prop where
  key : s.sc.key = some k
  allowed : k.possible.allowed = true
  reads : Reads ⟨s.buf, s.sc.stats⟩ ⟨b! ':' :: s'.buf, m⟩
  lines : m.lines ≤ k.stats.lines
  read : m.read ≤ k.stats.read + 1024
  stats : s'.sc.stats = m.update 1 0 1
  quiet : ∀ e ∈ q, Quiet e
  start : st = [] ∨ st = [⟨.Token .BlockMappingStart, k.stats.read⟩]
  out : s'.out = s.out ++ (q ++ st ++ [⟨.Token .Key, k.stats.read⟩, ⟨.Token .Value, m.read + 1⟩])

/-- A key is either explicit or found after the fact. -/
theorem step_key {s s' : SS} (hB : Before s) (hs : Scan.scanNextToken opts s = (.ok (), s'))
    {e : TokenEntry} (he : e ∈ pushedBy s s') (hm : e.wrap.marker = .Key) :
    (e.readAt = s'.sc.stats.read ∧ s.sc.stats.read < s'.sc.stats.read) ∨
    ∃ k q st m, Retro s s' k q st m ∧ e = ⟨.Token .Key, k.stats.read⟩ := by
  have none : ∀ l, s'.out = s.out ++ l → (∀ x ∈ l, x.wrap.marker ≠ .Key) →
      (e.readAt = s'.sc.stats.read ∧ s.sc.stats.read < s'.sc.stats.read) ∨ ∃ k q st m, Retro s s' k q st m ∧ e = ⟨.Token .Key, k.stats.read⟩ := by
    intro l h1 h2
    unfold pushedBy at he
    rw [h1, List.drop_left] at he
    exact absurd hm (h2 e he)
  by_cases hst : s.sc.state = .Start
  · unfold Scan.scanNextToken at hs
    replace hs := bind_ok hs
    obtain ⟨_, s1, h1, hs⟩ := hs
    obtain ⟨rfl, rfl⟩ := get_ok h1
    simp only [hst, beq_self_eq_true, ↓reduceIte] at hs
    obtain ⟨l, h1, h2⟩ := Adds.of_eq (S := Quiet)
      ((Adds.upd _).bind fun _ => Adds.push fun r => by quiet) hs
    exact none l h1 fun x hx => (h2 x hx).2
  · obtain ⟨s1, h1, h2⟩ := step_cases hs hst
    obtain ⟨hB1, hr1, hst1, hF, ⟨l, hl, hq⟩, hkey⟩ := prepare_ok hB h1
    have quiet_case : (∃ l, s'.out = s1.out ++ l ∧ ∀ e ∈ l, e.wrap.marker ≠ .Key) →
        (e.readAt = s'.sc.stats.read ∧ s.sc.stats.read < s'.sc.stats.read) ∨ ∃ k q st m, Retro s s' k q st m ∧ e = ⟨.Token .Key, k.stats.read⟩ := by
      rintro ⟨l', e1, e2⟩
      refine none (l ++ l') (by rw [e1, hl, List.append_assoc]) fun x hx => ?_
      rcases List.mem_append.1 hx with hx | hx
      · exact (hq x hx).2
      · exact e2 x hx
    rcases h2 with ⟨-, h2⟩ | ⟨-, h2⟩
    · refine quiet_case (Adds.of_eq ?_ h2)
      exact Adds.get.bind fun _ => (Adds.pure _).ite (((Adds.unroll (fun r => by simp [MaybeToken.marker, Marker.ofToken]) _).bind fun _ =>
        Adds.removeKey.bind fun _ => (Adds.upd _).bind fun _ => Adds.push fun r => by simp [MaybeToken.marker, Marker.ofToken]).ite (Adds.pure _))
    · by_cases hn : (Scan.dispatch s1.sc.context s1.sc.stats.column s1.buf).isNode = true
      · have hp := run_node hB1 hn h2
        obtain ⟨tok, ht, ho⟩ := hp.out
        refine quiet_case ⟨_, ho, fun x hx => ?_⟩
        simp only [List.mem_singleton] at hx
        subst hx
        rcases ht with h | h | h | h <;> rw [h] <;> simp
      · have hn' : (Scan.dispatch s1.sc.context s1.sc.stats.column s1.buf).isNode = false := by simpa using hn
        have hds := Closed.dispatch_starts s1.sc.context s1.sc.stats.column s1.buf
        generalize Scan.dispatch s1.sc.context s1.sc.stats.column s1.buf = f at h2 hn' hds
        by_cases hv : f = .value
        · subst hv
          by_cases hk : ∃ k, s1.sc.key = some k ∧ k.possible.allowed = true
          · obtain ⟨k, hk, ha⟩ := hk
            obtain ⟨st, h3, h4, h5, h6, -⟩ := run_value_saved hk ha h2
            obtain ⟨t, ht⟩ := hds
            have hk0 : s.sc.key = some k := by
              rcases hkey k hk with h | ⟨k0, -, h⟩
              · exact h
              · rw [h] at ha; cases ha
            have ho : s'.out = s.out ++ (l ++ st ++ [⟨.Token .Key, k.stats.read⟩,
                ⟨.Token .Value, s1.sc.stats.read + 1⟩]) := by
              rw [h4, hl]; simp only [List.append_assoc]
            refine .inr ⟨k, l, st, s1.sc.stats, ⟨hk0, ha, ?_, (hF k hk ha).1, (hF k hk ha).2, h6, hq, h3, ho⟩, ?_⟩
            · rw [h5, ht]
              rw [ht] at hr1
              exact hr1
            · unfold pushedBy at he
              rw [ho, List.drop_left] at he
              simp only [List.mem_append, List.mem_cons, List.not_mem_nil, or_false] at he
              rcases he with (he | he) | he | he
              · exact absurd hm (hq e he).2
              · rcases h3 with rfl | rfl
                · cases he
                · simp only [List.mem_singleton] at he
                  subst he
                  simp [MaybeToken.marker, Marker.ofToken] at hm
              · exact he
              · subst he
                simp [MaybeToken.marker, Marker.ofToken] at hm
          · obtain ⟨l, h3, h4⟩ := run_value_bare (s := s1) (fun k hk' => by
              cases ha : k.possible.allowed with
              | true => exact absurd ⟨k, hk', ha⟩ hk
              | false => rfl) h2
            exact quiet_case ⟨l, h3, fun e he => (h4 e he).2⟩
        · by_cases hx : f = .explicitKey
          · subst hx
            obtain ⟨l', h3, h4, h5⟩ := run_explicitKey h2
            left
            have := hr1.moves.read_le
            simp only at this
            refine ⟨?_, by omega⟩
            unfold pushedBy at he
            rw [h3, hl, List.append_assoc, List.append_assoc, List.drop_left] at he
            simp only [List.mem_append, List.mem_cons, List.not_mem_nil, or_false] at he
            rcases he with he | he | he
            · exact absurd hm (hq e he).2
            · exact absurd hm (h4 e he).2
            · rw [he]
          · obtain ⟨l, h3, h4⟩ := run_quiet hn' hv hx (fun h => by subst h; exact hds) h2
            exact quiet_case ⟨l, h3, fun e he => (h4 e he).2⟩

theorem ins_last {l : List TokenEntry} {e : TokenEntry} (h : ∀ x ∈ l, x.readAt ≤ e.readAt) : ins l e = l ++ [e] := by
  unfold ins
  rw [List.filter_eq_self.2 (by simpa using h), List.filter_eq_nil_iff.2 (by simpa using h)]

/-- The order in which the tokens are handed over, after a key is found. -/
theorem retro_deliver {s s' : SS} {k : KeySave} {q st : List TokenEntry} {m : MStats} (h : Retro s s' k q st m)
    (hB : Before s') : ∃ a b, deliver s'.out =
      a ++ st ++ ⟨.Token .Key, k.stats.read⟩ :: (b ++ [⟨.Token .Value, m.read + 1⟩]) ∧
      (∀ e ∈ a, e.readAt ≤ k.stats.read) ∧ (∀ e ∈ b, k.stats.read < e.readAt) ∧
      ∀ e ∈ s.out, e ∈ a ∨ e ∈ b := by
  generalize hd : deliver (s.out ++ q) = d
  refine ⟨d.filter fun x => decide (x.readAt ≤ k.stats.read), d.filter fun x => decide (k.stats.read < x.readAt),
    ?_, fun e he => ?_, fun e he => ?_, fun e he => ?_⟩
  · have h1 : s'.out = s.out ++ q ++ st ++ [⟨.Token .Key, k.stats.read⟩] ++ [⟨.Token .Value, m.read + 1⟩] := by
      rw [h.out]; simp
    have h2 : deliver (s.out ++ q ++ st ++ [⟨.Token .Key, k.stats.read⟩]) =
        (d.filter fun x => decide (x.readAt ≤ k.stats.read)) ++ st ++ ⟨.Token .Key, k.stats.read⟩ ::
          d.filter fun x => decide (k.stats.read < x.readAt) := by
      rw [deliver_snoc]
      rcases h.start with rfl | rfl
      · simp [ins, hd]
      · rw [deliver_snoc, hd]
        simp only [ins, List.filter_append, List.filter_filter, List.filter_cons]
        simp only [Nat.le_refl, decide_true, ↓reduceIte, Nat.lt_irrefl, decide_false, Bool.false_eq_true]
        have e1 : ∀ x : TokenEntry, (decide (x.readAt ≤ k.stats.read) && decide (k.stats.read < x.readAt)) = false := by
          intro x; simp
        have e2 : ∀ x : TokenEntry, (decide (k.stats.read < x.readAt) && decide (x.readAt ≤ k.stats.read)) = false := by
          intro x; simp
        have e3 : d.filter (fun _ => false) = [] := List.filter_eq_nil_iff.2 (by simp)
        simp [e1, e2, e3]
    rw [h1, deliver_snoc, h2]
    have hle : ∀ x ∈ deliver (s.out ++ q ++ st ++ [⟨.Token .Key, k.stats.read⟩]), x.readAt ≤ m.read + 1 := by
      intro x hx
      have := hB.out x (by rw [h1]; exact List.mem_append_left _ (mem_deliver.1 hx))
      rw [h.stats] at this
      exact this
    rw [h2] at hle
    rw [ins_last (e := ⟨.Token .Value, m.read + 1⟩) hle]
    simp
  · simpa using (List.mem_filter.1 he).2
  · simpa using (List.mem_filter.1 he).2
  · have : e ∈ d := by rw [← hd]; exact mem_deliver.2 (List.mem_append_left _ he)
    by_cases hc : e.readAt ≤ k.stats.read
    · exact .inl (List.mem_filter.2 ⟨this, by simpa using hc⟩)
    · exact .inr (List.mem_filter.2 ⟨this, by simpa using hc⟩)

/-- The loop stays among the states of a scanner. -/
theorem loop_reach {base : Str} (hv : validUtf8 base = true) : ∀ fuel (sc : Scanner) (out : List TokenEntry)
    {o : Out ScanError Unit} {sc' : Scanner} {out' : List TokenEntry},
    Reach true opts base ⟨sc, base.drop sc.offset, out⟩ → scanLoop opts base fuel sc out = (o, sc', out') →
    o ≠ .panic → o ≠ .diverge → Reach true opts base ⟨sc', base.drop sc'.offset, out'⟩ := by
  intro fuel
  induction fuel with
  | zero =>
    intro sc out o sc' out' _ h _ h'
    simp only [scanLoop, Prod.mk.injEq] at h
    exact absurd h.1.symm h'
  | succ fuel ih =>
    intro sc out o sc' out' hR h hp hg
    rw [scanLoop] at h
    by_cases hgo : (decide (sc.state ≠ .Done) && (out.isEmpty || sc.keyPossible)) = true
    · rw [if_pos hgo] at h
      have hd : sc.state ≠ .Done := by
        simp only [ne_eq, Bool.and_eq_true, decide_eq_true_eq] at hgo
        exact hgo.1
      by_cases hb : isBoundary base sc.offset = true
      · rw [if_pos hb] at h
        have hT : Rest (base.drop sc.offset) sc.offset ⟨sc, base.drop sc.offset, out⟩ :=
          ⟨(reach_before hv hR).valid, ⟨[], rfl⟩, rfl, hd⟩
        have hstep := (closed_rest (base.drop sc.offset) sc.offset).scanNextToken (P := True) (opts := opts)
          (.inl trivial) hT hd
        unfold Holds at hstep
        have hdrop : ∀ {buf : Str}, (∃ p, base.drop sc.offset = p ++ buf) → base.drop (base.length - buf.length) = buf := by
          rintro buf ⟨p, hp⟩
          obtain ⟨p', hp'⟩ : ∃ p', base = p' ++ buf :=
            ⟨base.take sc.offset ++ p, by rw [List.append_assoc, ← hp, List.take_append_drop]⟩
          rw [hp']; simp
        cases hs : Scan.scanNextToken opts ⟨sc, base.drop sc.offset, out⟩ with
        | mk r s =>
          rw [hs] at h hstep
          cases r with
          | ok a =>
            have hR' : Reach true opts base s := .step hR hd hs
            have hsuf : ∃ p, base.drop sc.offset = p ++ s.buf := by
              rcases hstep with ⟨h1, -⟩ | ⟨-, h1⟩
              · exact h1.2.1
              · obtain @⟨s1, h2, -, -, -, -⟩ := h1
                exact h2.2.1
            refine ih _ _ ?_ h hp hg
            have := Reach.offset (base.length - s.buf.length) hR'
            simp only
            rw [hdrop hsuf]
            exact this
          | err e =>
            by_cases he : e = .Extend
            · subst he
              simp only [↓reduceIte, Prod.mk.injEq] at h
              obtain ⟨rfl, rfl, rfl⟩ := h
              have := Reach.offset (base.length - s.buf.length) (Reach.more rfl hR hd hs)
              simp only
              rw [hdrop hstep.2.1]
              exact this
            · simp only [he, ↓reduceIte, Prod.mk.injEq] at h
              obtain ⟨rfl, rfl, rfl⟩ := h
              have := Reach.fail rfl hR hd hs
              rw [hstep.2.2.1]
              exact this
          | panic =>
            simp only [Prod.mk.injEq] at h
            exact absurd h.1.symm hp
          | diverge =>
            simp only [Prod.mk.injEq] at h
            exact absurd h.1.symm hg
      · rw [if_neg hb] at h
        exact ih _ _ hR h hp hg
    · rw [if_neg hgo] at h
      simp only [Prod.mk.injEq] at h
      obtain ⟨-, rfl, rfl⟩ := h
      exact hR

end Yary
