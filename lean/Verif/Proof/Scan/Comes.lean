import Verif.Proof.Scan.TagOk

/-! # Steps that push a token: what is needed for them to succeed -/

namespace Yary

open Spec

variable {opts : SFlags} {comments : Bool}

/-- At a line break, or at the end, it makes no difference whether there is a comment. -/
theorem eatWsLoop_break {fuel : Nat} {s : Str} {m : MStats} (h : s = [] ∨ AtBreak s) :
    eatWsLoop opts comments fuel true ⟨s, m⟩ = eatWsLoop opts comments fuel false ⟨s, m⟩ := by
  cases fuel with
  | zero => rfl
  | succ fuel =>
    rcases h with rfl | h
    · simp [eatWsLoop, isBlank, isBreak, startsWith]
    · have h := atBreak_iff.1 h
      have hb : isBlank s = false := by
        cases hb : isBlank s with
        | false => rfl
        | true => rw [isBlank_break hb] at h; cases h
      simp [eatWsLoop, hb, h]

theorem Around.tail {b : Byte} {s r : Str} (h : Around (b :: s) r) (hl : r.length ≤ s.length) : Around s r :=
  h.suffix (p := [b]) rfl hl

theorem Around.adv_one {b : Byte} {s r : Str} {m : MStats} (h : Around (b :: s) r) (hl : r.length ≤ s.length) :
    (⟨b :: s, m⟩ : Cur).adv 1 = .ok ⟨s, m.update 1 0 1⟩ := by
  unfold Cur.adv
  rw [if_pos (h.boundary (by simp; omega))]
  rfl

/-- White space is skipped, if what is to be skipped is ASCII. -/
theorem eatWsLoop_around (hx : opts.extendable = false) {s r : Str} {n : Nat} (h : Skips comments s n r) :
    ∀ {m : MStats} {fuel : Nat}, Around s r → s.length < fuel → ∃ m', eatWsLoop opts comments fuel false ⟨s, m⟩ = .ok ⟨r, m'⟩ := by
  induction h with
  | @done s h1 h2 h3 h4 =>
    intro m fuel _ hf
    cases fuel with
    | zero => omega
    | succ fuel =>
      have e1 : isBlank s = false := not_blank.2 ⟨h1, h2⟩
      have e2 : isBreak s = false := by
        cases e : isBreak s with
        | false => rfl
        | true => exact absurd (atBreak_iff.2 e) h3
      have e3 : (comments && startsWith s b! '#') = false := by
        cases hc : comments with
        | false => rfl
        | true =>
          cases e : startsWith s b! '#' with
          | false => rfl
          | true =>
            obtain ⟨t, ht⟩ := startsWith_iff.1 e
            exact absurd ht (h4 hc t)
      refine ⟨m, ?_⟩
      simp [eatWsLoop, cache_whole opts hx, e1, e2, e3]
  | @blank b t r n hb h ih =>
    intro m fuel hA hf
    obtain ⟨p, hp⟩ := h.suffix
    have hl : r.length ≤ t.length := by rw [hp]; simp
    cases fuel with
    | zero => omega
    | succ fuel =>
      have e1 : isBlank (b :: t) = true := isBlank_iff.2 ⟨b, t, rfl, hb⟩
      obtain ⟨m', ih⟩ := ih (m := m.update 1 0 1) (fuel := fuel) (hA.tail hl) (by simpa using hf)
      refine ⟨m', ?_⟩
      rw [eatWsLoop]
      simp only [cache_whole opts hx, Out.ok_bind, e1, ↓reduceIte, hA.adv_one hl, ih]
  | @line w t r n hw h ih =>
    intro m fuel hA hf
    obtain ⟨p, hp⟩ := h.suffix
    have hl : r.length ≤ t.length := by rw [hp]; simp
    cases fuel with
    | zero => omega
    | succ fuel =>
      have hbr : isBreak (w ++ t) = true := atBreak_iff.1 ⟨w, hw.1, t, rfl⟩
      have e1 : isBlank (w ++ t) = false := by
        cases e : isBlank (w ++ t) with
        | false => rfl
        | true => rw [isBlank_break e] at hbr; cases hbr
      have hlen := breakLen_before hw
      have hw0 : 0 < w.length := by
        have := breakLen_pos.2 hbr
        omega
      obtain ⟨m', ih⟩ := ih (m := m.update w.length 1 0) (fuel := fuel) (hA.suffix rfl hl) (by simp at hf; omega)
      refine ⟨m', ?_⟩
      rw [eatWsLoop]
      have hline : (⟨w ++ t, m⟩ : Cur).line = .ok ⟨t, m.update w.length 1 0⟩ := by
        simp only [Cur.line, hlen]
        rw [if_pos (hA.boundary (by simp; omega))]
        simp
      simp only [cache_whole opts hx, Out.ok_bind, e1, hbr, Bool.false_eq_true, ↓reduceIte, hline, ih]
  | @comment body t r n hc hb ht h ih =>
    intro m fuel hA hf
    obtain ⟨p, hp⟩ := h.suffix
    have hl : r.length ≤ t.length := by rw [hp]; simp
    -- the body
    have inner : ∀ (body : Str) (m : MStats) (fuel : Nat), (∀ i < body.length, ¬ AtBreak ((body ++ t).drop i)) →
        Around (body ++ t) r → (body ++ t).length < fuel → ∃ m', eatWsLoop opts comments fuel true ⟨body ++ t, m⟩ = .ok ⟨r, m'⟩ := by
      intro body
      induction body with
      | nil =>
        intro m fuel _ hA hf
        obtain ⟨m', ih⟩ := ih (m := m) (fuel := fuel) hA hf
        exact ⟨m', by rw [List.nil_append, eatWsLoop_break ht]; exact ih⟩
      | cons b body ihb =>
        intro m fuel hb hA hf
        cases fuel with
        | zero => omega
        | succ fuel =>
          have hl' : r.length ≤ (body ++ t).length := by simp; omega
          have hnb : isBreak (b :: (body ++ t)) = false := by
            cases e : isBreak (b :: (body ++ t)) with
            | false => rfl
            | true => exact absurd (atBreak_iff.2 e) (hb 0 (by simp))
          obtain ⟨m', ih'⟩ := ihb (m.update 1 0 1) fuel (fun i hi => by simpa using hb (i + 1) (by simpa using hi))
            (hA.tail hl') (by simp only [List.cons_append, List.length_cons] at hf; omega)
          refine ⟨m', ?_⟩
          rw [eatWsLoop]
          have hadv : (⟨b :: (body ++ t), m⟩ : Cur).adv 1 = .ok ⟨body ++ t, m.update 1 0 1⟩ := Around.adv_one (r := r) hA hl'
          simp only [List.cons_append]
          simp only [cache_whole opts hx, Out.ok_bind, hnb, Bool.false_eq_true, ↓reduceIte, List.isEmpty_cons,
            Bool.not_false, Bool.and_true, ite_self]
          rw [hadv, Out.ok_bind]
          exact ih'
    cases fuel with
    | zero => omega
    | succ fuel =>
      have hl' : r.length ≤ (body ++ t).length := by simp; omega
      obtain ⟨m', hi⟩ := inner body (m.update 1 0 1) fuel hb (hA.tail hl') (by simp only [List.length_cons] at hf; omega)
      refine ⟨m', ?_⟩
      rw [eatWsLoop]
      have e1 : isBlank (0x23 :: (body ++ t)) = false := by simp [isBlank, startsWith]
      have e2 : isBreak (0x23 :: (body ++ t)) = false := NoBrk.isBreak (by decide)
      have e3 : startsWith (0x23 :: (body ++ t)) b! '#' = true := by simp [startsWith]
      simp only [cache_whole opts hx, Out.ok_bind, e1, e2, e3, hc, Bool.and_self, Bool.false_eq_true, ↓reduceIte, hA.adv_one hl']
      rw [hc] at hi
      exact hi

theorem eatWs_around (hx : opts.extendable = false) {s r : Str} {n : Nat} {m : MStats} (h : Skips comments s n r) (hA : Around s r) :
    ∃ m', eatWs opts comments ⟨s, m⟩ = .ok ⟨r, m'⟩ := eatWsLoop_around hx h hA (Nat.lt_succ_self _)

theorem bind_run {α β : Type} {m : Scan α} {f : α → Scan β} {s s1 : SS} {a : α} (h : m s = (.ok a, s1)) : (m >>= f) s = f a s1 := by
  simp only [bind, SO.bind, h]

theorem bind_run_err {α β : Type} {m : Scan α} {f : α → Scan β} {s s1 : SS} {e : ScanError} (h : m s = (.err e, s1)) :
    (m >>= f) s = (.err e, s1) := by
  simp only [bind, SO.bind, h]

/-- Without a key that is due, the scanner gets to the next token. -/
theorem prepare_comes (hx : opts.extendable = false) {s : SS} {t : Str} (hk : ¬ KeyDue s) (hc : Comes s t) (hr : HeadOk t) :
    ∃ s1 l, Scan.prepare opts s = (.ok (), s1) ∧ s1.buf = t ∧ s1.sc.state = .Stream ∧ ¬ KeyDue s1 ∧ s1.out = s.out ++ l ∧
      (∀ e ∈ l, e.wrap = .Token .BlockEnd) ∧ ∃ p, s.buf = p ++ t ∧ s1.sc.stats = posAfter s.sc.stats p := by
  obtain ⟨hst, ⟨n, hn⟩, p, hp, hpa⟩ := hc
  have hA : Around s.buf t := ⟨⟨p, hp, hpa⟩, hr⟩
  obtain ⟨m', he⟩ := eatWs_around (m := {}) hx hn hA
  -- white space
  have hews : Scan.eatWhitespace opts s = (.ok (), { s with buf := t, sc := { s.sc with stats := s.sc.stats.add m', simpleKeyAllowed := if m'.lines ≠ 0 then true else s.sc.simpleKeyAllowed } }) := by
    unfold Scan.eatWhitespace Scan.sub
    have hbd : isBoundary s.buf (s.buf.length - t.length) = true := hA.boundary (by rw [hp]; simp)
    simp [bind, SO.bind, Scan.get, SO.get, SO.lift, he, Scan.upd, SO.modify, Scan.commit, hbd]
  obtain ⟨n', q, -, hq1, hq2, -⟩ := C14_line_change hews
  simp only at hq1 hq2
  generalize hs2 : ({ s with buf := t, sc := { s.sc with stats := s.sc.stats.add m', simpleKeyAllowed := if m'.lines ≠ 0 then true else s.sc.simpleKeyAllowed } } : SS) = s2 at hews
  have f1 : s2.buf = t := by rw [← hs2]
  have f2 : s2.sc.state = .Stream := by rw [← hs2]; exact hst
  have f3 : ¬ KeyDue s2 := by rw [← hs2]; exact hk
  have f4 : s2.out = s.out := by rw [← hs2]
  have f5 : s2.sc.stats = posAfter s.sc.stats q := by rw [← hs2]; exact hq2
  clear hs2
  -- the key
  have hex : ∃ s3, Scan.expireKey s2 = (.ok (), s3) ∧ s3.buf = s2.buf ∧ s3.sc.state = s2.sc.state ∧ ¬ KeyDue s3 ∧ s3.out = s2.out ∧ s3.sc.stats = s2.sc.stats := by
    unfold Scan.expireKey
    rw [bind_run (m := Scan.get) (a := s2) (s1 := s2) rfl]
    cases hkey : s2.sc.key with
    | none => exact ⟨s2, rfl, rfl, rfl, f3, rfl, rfl⟩
    | some k =>
      have hreq : k.possible ≠ .Required := fun h => f3 ⟨k, hkey, h⟩
      have hreq' : k.possible.required = false := by
        cases hp : k.possible <;> simp [KeyPossible.required] at hreq ⊢
        exact hreq hp
      simp only [hreq', Bool.false_eq_true, ↓reduceIte]
      split
      · refine ⟨_, rfl, rfl, rfl, ?_, rfl, rfl⟩
        rintro ⟨k', h1, h2⟩
        simp at h1
        rw [← h1] at h2
        cases h2
      · exact ⟨s2, rfl, rfl, rfl, f3, rfl, rfl⟩
  obtain ⟨s3, g0, g1, g2, g3, g4, g5⟩ := hex
  have hun : Scan.unrollIndent (some s3.sc.stats.column) s3 = (.ok (), (Scan.unrollIndent (some s3.sc.stats.column) s3).2) := rfl
  have hpop : ∀ s4, Scan.popZeroIndent s4 = (.ok (), (Scan.popZeroIndent s4).2) := fun _ => rfl
  refine ⟨(Scan.popZeroIndent (Scan.unrollIndent (some s3.sc.stats.column) s3).2).2, ?_⟩
  have hrun : Scan.prepare opts s = (.ok (), (Scan.popZeroIndent (Scan.unrollIndent (some s3.sc.stats.column) s3).2).2) := by
    unfold Scan.prepare
    rw [bind_run hews, bind_run g0, bind_run (m := Scan.get) (a := s3) (s1 := s3) rfl, bind_run hun, hpop]
  obtain ⟨l, hl, hl'⟩ := (Adds.prepare (S := fun e => e.wrap = .Token .BlockEnd) (fun _ => rfl)).of_eq hrun
  have pz : ∀ s4 : SS, (Scan.popZeroIndent s4).2.buf = s4.buf ∧ (Scan.popZeroIndent s4).2.sc.state = s4.sc.state ∧
      (Scan.popZeroIndent s4).2.sc.key = s4.sc.key ∧ (Scan.popZeroIndent s4).2.sc.stats = s4.sc.stats := by
    intro s4
    unfold Scan.popZeroIndent SO.modify
    simp only
    cases s4.sc.context.indents with
    | nil => simp
    | cons e es => simp only; split <;> simp
  obtain ⟨p1, p2, p3, p4⟩ := pz (Scan.unrollIndent (some s3.sc.stats.column) s3).2
  refine ⟨l, hrun, ?_, ?_, ?_, hl, hl', q, hq1, ?_⟩
  · rw [p1]; exact g1.trans f1
  · rw [p2]; exact g2.trans f2
  · unfold KeyDue; rw [p3]; exact g3
  · rw [p4]; exact g5.trans f5

theorem removeSavedKey_run {s : SS} (hk : ¬ KeyDue s) : Scan.removeSavedKey s = (.ok (), { s with sc := { s.sc with key := none } }) := by
  unfold Scan.removeSavedKey Scan.takeKey
  simp only [bind, SO.bind, Scan.get, SO.get, Scan.upd, SO.modify, pure, SO.pure]
  cases hkey : s.sc.key with
  | none => rfl
  | some k =>
    have hreq : k.possible ≠ .Required := fun h => hk ⟨k, hkey, h⟩
    have hreq' : k.possible.required = false := by
      cases hp : k.possible <;> simp [KeyPossible.required] at hreq ⊢
      exact hreq hp
    simp [hreq', SO.pure]

theorem saveKey_run {s : SS} (hk : ¬ KeyDue s) : ∃ s', Scan.saveKey s = (.ok (), s') ∧ s'.buf = s.buf ∧ s'.out = s.out ∧ s'.sc.stats = s.sc.stats := by
  unfold Scan.saveKey
  rw [bind_run (m := Scan.get) (a := s) (s1 := s) rfl]
  by_cases ha : s.sc.simpleKeyAllowed = true
  · rw [if_pos ha, bind_run (removeSavedKey_run hk)]
    exact ⟨_, rfl, rfl, rfl, rfl⟩
  · rw [if_neg ha]
    exact ⟨s, rfl, rfl, rfl, rfl⟩

theorem finish_run {s : SS} {tok : MaybeToken} {c : Cur} (hk : ¬ KeyDue s) (hb : isBoundary s.buf (s.buf.length - c.buf.length) = true) :
    ∃ s', Scan.finish tok c s = (.ok (), s') ∧ s'.buf = c.buf ∧ s'.sc.stats = s.sc.stats.add c.stats ∧ s'.out = s.out ++ [⟨tok, s'.sc.stats.read⟩] := by
  obtain ⟨s1, h1, h2, h3, h4⟩ := saveKey_run hk
  unfold Scan.finish
  rw [bind_run h1]
  simp only [bind, SO.bind, Scan.get, SO.get, Scan.upd, SO.modify, Scan.commit, Scan.enqueue, h2, hb, ↓reduceIte]
  exact ⟨_, rfl, rfl, by rw [h4], by rw [h3]⟩

/-- The step up to a token. -/
theorem step_prepared (hx : opts.extendable = false) {s : SS} {t : Str} (hk : ¬ KeyDue s) (hc : Comes s t) (hr : HeadOk t) (ht : t ≠ []) :
    ∃ s1 l, Scan.scanNextToken opts s = Scan.run opts (Scan.dispatch s1.sc.context s1.sc.stats.column t) s1 ∧ s1.buf = t ∧ ¬ KeyDue s1 ∧ s1.out = s.out ++ l ∧
      (∀ e ∈ l, e.wrap = .Token .BlockEnd) ∧ (∃ p, s.buf = p ++ t ∧ s1.sc.stats = posAfter s.sc.stats p) ∧ Scan.prepare opts s = (.ok (), s1) := by
  obtain ⟨s1, l, h1, h2, h3, h4, h5, h6, h7⟩ := prepare_comes hx hk hc hr
  refine ⟨s1, l, ?_, h2, h4, h5, h6, h7, h1⟩
  unfold Scan.scanNextToken
  have hst : (s.sc.state == .Start) = false := by rw [hc.1]; rfl
  rw [bind_run (m := Scan.get) (a := s) (s1 := s) rfl]
  simp only [hst, Bool.false_eq_true, ↓reduceIte]
  rw [bind_run h1]
  unfold Scan.fetchNext
  rw [bind_run (m := Scan.get) (a := s1) (s1 := s1) rfl]
  have he : s1.buf.isEmpty = false := by
    rw [h2]
    cases t with
    | nil => exact absurd rfl ht
    | cons => rfl
  have hd : (s1.sc.state == .Done) = false := by rw [h3]; rfl
  simp only [he, hd, Bool.or_self, Bool.false_eq_true, ↓reduceIte]
  rw [bind_run (a := ()) (s1 := s1) (by simp [SO.lift, cache_whole opts hx])]
  rw [h2]

theorem step_comes (hx : opts.extendable = false) {s : SS} {t : Str} (hk : ¬ KeyDue s) (hc : Comes s t) (hr : HeadOk t) (ht : t ≠ []) :
    ∃ s1 l, Scan.scanNextToken opts s = Scan.run opts (Scan.dispatch s1.sc.context s1.sc.stats.column t) s1 ∧ s1.buf = t ∧ ¬ KeyDue s1 ∧ s1.out = s.out ++ l ∧
      (∀ e ∈ l, e.wrap = .Token .BlockEnd) ∧ ∃ p, s.buf = p ++ t ∧ s1.sc.stats = posAfter s.sc.stats p := by
  obtain ⟨s1, l, h1, h2, h3, h4, h5, h6, -⟩ := step_prepared hx hk hc hr ht
  exact ⟨s1, l, h1, h2, h3, h4, h5, h6⟩

/-- A step that scans something and pushes it. -/
theorem step_finish (hx : opts.extendable = false) {s : SS} {b : Byte} {t : Str} (hk : ¬ KeyDue s) (hc : Comes s (b :: t)) (hb : b < 128)
    {α : Type} {f : Cur → Out ScanError α} {g : α → MaybeToken × Cur}
    (hf : ∀ (s1 : SS), s1.buf = b :: t → Scan.run opts (Scan.dispatch s1.sc.context s1.sc.stats.column (b :: t)) s1 =
      (Scan.sub {} f >>= fun r => Scan.finish (g r).1 (g r).2) s1) :
    (∀ r, f ⟨b :: t, {}⟩ = .ok r → isBoundary (b :: t) ((b :: t).length - (g r).2.buf.length) = true →
      ∃ s', Scan.scanNextToken opts s = (.ok (), s') ∧ s'.buf = (g r).2.buf ∧ Pushes s s' (g r).1) ∧
    (∀ e, f ⟨b :: t, {}⟩ = .err e → ∃ s', Scan.scanNextToken opts s = (.err e, s')) := by
  have hh : HeadOk (b :: t) := by rintro x y h; simp at h; exact .inl (h.1 ▸ hb)
  obtain ⟨s1, l, h1, h2, h3, h4, h5, -⟩ := step_comes hx hk hc hh (by simp)
  rw [hf s1 h2] at h1
  rw [h1]
  constructor
  · intro r hr hbd
    have : Scan.sub {} f s1 = (.ok r, s1) := by
      simp [Scan.sub, bind, SO.bind, Scan.get, SO.get, SO.lift, h2, hr]
    rw [bind_run this]
    rw [← h2] at hbd
    obtain ⟨s', g1, g2, g3, g4⟩ := finish_run (tok := (g r).1) h3 hbd
    refine ⟨s', g1, g2, l, ?_, h5⟩
    unfold pushedBy
    rw [g4, h4, List.append_assoc, List.drop_left]
  · intro e he
    have : Scan.sub {} f s1 = (.err e, s1) := by
      simp [Scan.sub, bind, SO.bind, Scan.get, SO.get, SO.lift, h2, he]
    rw [bind_run_err this]
    exact ⟨s1, rfl⟩

end Yary
