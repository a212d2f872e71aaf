import Verif.Proof.Lazy.Base

/-! # Deferred scalars at the beginning of a text -/

namespace Yary.Chunk

open Out (Sat)

variable {o o' : SFlags} {t : Str} (hx : o.extendable = true) (hx' : o'.extendable = false) (ht : HeadOk t)

include hx hx' ht

omit hx hx' ht in
theorem Later.and_ok {α β : Type} {R : α → β → Prop} {x : Out ScanError α} {y : Out ScanError β} {Q : α → Prop}
    (h : Later No R x y) (hq : ∀ a, x = .ok a → Q a) : Later No (fun a b => R a b ∧ Q a) x y := by
  cases x with
  | ok a =>
    rcases h with h | ⟨b, rfl, h⟩
    · exact h.elim
    · exact .ok ⟨h, hq a rfl⟩
  | err e => exact h
  | panic => exact h
  | diverge => trivial

omit hx hx' ht in
theorem slice_valid {s v : Str} {n : Nat} (hv : validUtf8 s = true) (h : (slice s 0 n : Out ScanError Str) = .ok v) :
    validUtf8 v = true := by
  unfold slice at h
  split at h
  · rename_i hc
    simp only [Bool.and_eq_true, decide_eq_true_eq] at hc
    injection h with h
    subst h
    have hd := validUtf8_drop hv hc.2
    rw [← List.take_append_drop n s] at hv
    simpa using Yary.Deferred.valid_before hv (headOk_of_valid hd)
  · cases h

omit hx hx' ht in
theorem slice_begins {s v : Str} {n : Nat} (hv : validUtf8 s = true) (hi : startsWith s b! '|' = true ∨ startsWith s b! '>' = true)
    (hn : n ≠ 0) (h : (slice s 0 n : Out ScanError Str) = .ok v) :
    (validUtf8 v && (startsWith v b! '|' || startsWith v b! '>')) = true := by
  rw [slice_valid hv h]
  unfold slice at h
  split at h
  · injection h with h
    subst h
    obtain ⟨n, rfl⟩ : ∃ k, n = k + 1 := ⟨n - 1, by omega⟩
    cases s with
    | nil => simp [startsWith] at hi
    | cons a s => simpa [startsWith] using hi
  · cases h

/-! ## Quoted scalars -/

omit hx' ht in
theorem flowLazyLoop_stuck {single : Bool} {fuel : Nat} {c : Cur} (h : c.buf = []) :
    flowLazyLoop o single fuel c = .err .Extend ∨ flowLazyLoop o single fuel c = .diverge := by
  cases fuel with
  | zero => exact .inr rfl
  | succ fuel => rw [flowLazyLoop, h, cache_nil hx]; exact .inl rfl

theorem flowLazyLoop_later {single : Bool} {fuel fuel' : Nat} (hf : fuel ≤ fuel') {c : Cur} (hv : validUtf8 c.buf = true) :
    Later No (Grown t) (flowLazyLoop o single fuel c) (flowLazyLoop o' single fuel' ⟨c.buf ++ t, c.stats⟩) := by
  induction fuel generalizing fuel' c with
  | zero => trivial
  | succ fuel ih =>
    obtain ⟨fuel', rfl⟩ : ∃ k, fuel' = k + 1 := ⟨fuel' - 1, by omega⟩
    have hf' : fuel ≤ fuel' := by omega
    rw [flowLazyLoop, flowLazyLoop]
    refine cache_later hx hx' fun hh => ?_
    have hn := hh.ne
    have h2 := hh.length
    refine Later.iteB (isEmpty_grow hn) (fun _ => .err) fun _ => ?_
    refine Later.iteB (by rw [isPrefixOf_grow (p := [0x27, 0x27]) h2, isPrefixOf_grow (p := [0x5C, b! '"']) h2]) (fun _ => ?_) fun _ => ?_
    · refine (adv_later ht hv h2).bind0 ?_
      rintro c1 _ ⟨⟨rfl, hv1⟩, -⟩
      exact ih hf' hv1
    refine Later.iteB (by rw [startsWith_grow hn, startsWith_grow hn]) (fun _ => ?_) fun _ => ?_
    · refine (adv_later ht hv (by omega)).mono (fun _ h => h) ?_
      rintro c1 _ ⟨h1, -⟩
      exact h1
    refine Later.iteB (isBreak_grow hv hn) (fun _ => ?_) fun _ => ?_
    · refine (line_later ht hv hn).bind ?_ ?_
      · intro a ha
        exact flowLazyLoop_stuck hx ha
      · rintro c1 _ ⟨⟨rfl, hv1⟩, -⟩
        exact ih hf' hv1
    · rw [widthOf_grow hn]
      refine (adv_later ht hv (by simpa using width_fits hv (Nat.zero_le _))).bind0 ?_
      rintro c1 _ ⟨⟨rfl, hv1⟩, -⟩
      exact ih hf' hv1

/-- The results of the scanners of deferred scalars, on the beginning and on the text: the same up to `f`. -/
def Deferred (t : Str) (f : Lazy → Lazy) (a b : Lazy × Cur) : Prop :=
  b = (f a.1, ⟨a.2.buf ++ t, a.2.stats⟩) ∧ validUtf8 a.2.buf = true

omit hx hx' ht in
theorem lengths_grow {a b : Str} : (a ++ t).length - (b ++ t).length = a.length - b.length := by
  simp only [List.length_append]; omega

theorem scanFlowLazy_later (hl : o'.lazy = o.lazy) {single : Bool} {c : Cur} (hv : validUtf8 c.buf = true) :
    Later No (Deferred t id) (scanFlowLazy o single c) (scanFlowLazy o' single ⟨c.buf ++ t, c.stats⟩) := by
  unfold scanFlowLazy
  refine cache_later hx hx' fun hh => ?_
  refine (adv_later ht hv hh.length).bind0 ?_
  rintro c1 _ ⟨⟨rfl, hv1⟩, -⟩
  refine (flowLazyLoop_later hx hx' ht (by simp only [List.length_append]; omega) hv1).bind0 ?_
  rintro c2 _ ⟨rfl, hv2⟩
  simp only
  rw [lengths_grow, slice_grow ht (by omega)]
  refine Later.same.bind0 ?_
  rintro s _ rfl
  refine .ok ⟨?_, hv2⟩
  rw [hl]
  rfl

/-! ## Plain scalars -/

/-- The state on the text, for one on the beginning. -/
def PlainLazySt.grow (t : Str) (st : PlainLazySt) : PlainLazySt := { st with cur := ⟨st.cur.buf ++ t, st.cur.stats⟩ }

/-- The same progress in a deferred plain scalar; `n` is how much will have been read at the end. -/
structure PlainLazyGrown (t : Str) (n : Nat) (a b : PlainLazySt) : Prop where
  eq : b = PlainLazySt.grow t a
  valid : validUtf8 a.cur.buf = true
  cur : a.cur.stats.read + a.cur.buf.length = n
  scalar : a.scalarStats.read ≤ n

/-- The same, after an indicator that ended the scalar. -/
structure PlainLazyDone (t : Str) (n : Nat) (a b : PlainLazySt) : Prop where
  eq : b = PlainLazySt.grow t a
  cur : a.cur.stats.read ≤ n
  scalar : a.scalarStats.read ≤ n

omit hx hx' ht in
theorem PlainLazyGrown.done {n : Nat} {a b : PlainLazySt} (h : PlainLazyGrown t n a b) : PlainLazyDone t n a b :=
  ⟨h.eq, by have := h.cur; omega, h.scalar⟩

omit hx hx' ht in
/-- What ends a plain scalar is one byte long. -/
theorem plainEnd_ascii {s : Str} {block : Bool} (h : plainEnd block s = true) : ∃ b r, s = b :: r ∧ b < 128 := by
  cases s with
  | nil => simp [plainEnd, startsWith, flowIndicator] at h
  | cons b r =>
    refine ⟨b, r, rfl, ?_⟩
    simp only [plainEnd, startsWith, flowIndicator, Bool.or_eq_true, Bool.and_eq_true, beq_iff_eq] at h
    rcases h with ⟨h, -⟩ | ⟨-, h⟩
    · simp at h; byte_omega
    · simp at h; byte_omega

theorem plainLazyWord_later {block : Bool} {n fuel fuel' : Nat} (hf : fuel ≤ fuel') {st : PlainLazySt}
    (hg : PlainLazyGrown t n st (PlainLazySt.grow t st)) :
    Later (fun a => a.1 = false ∧ a.2.cur.buf = [])
      (fun a b => b = (a.1, PlainLazySt.grow t a.2) ∧ PlainLazyDone t n a.2 b.2 ∧
        (a.1 = false → PlainLazyGrown t n a.2 b.2))
      (plainLazyWord o block fuel st) (plainLazyWord o' block fuel' (PlainLazySt.grow t st)) := by
  induction fuel generalizing fuel' st with
  | zero => trivial
  | succ fuel ih =>
    obtain ⟨fuel', rfl⟩ : ∃ k, fuel' = k + 1 := ⟨fuel' - 1, by omega⟩
    have hf' : fuel ≤ fuel' := by omega
    rw [plainLazyWord, plainLazyWord]
    by_cases hn : st.cur.buf = []
    · rw [if_pos (by rw [hn]; rfl)]
      exact .stuck ⟨rfl, hn⟩
    · have hgb : (PlainLazySt.grow t st).cur.buf = st.cur.buf ++ t := rfl
      rw [hgb]
      refine Later.iteB (isWhiteSpaceZ_grow hg.valid hn) (fun _ => .ok ⟨rfl, hg.done, fun _ => hg⟩) fun _ => ?_
      refine cache_later hx hx' fun hh => ?_
      refine Later.iteB (plainEnd_grow hg.valid hh block) (fun he => ?_) fun _ => ?_
      · obtain ⟨b, r, hb, hlt⟩ := plainEnd_ascii he
        have hvr := hg.valid
        have h2 := hh.length
        rw [hb] at hvr h2
        have hr : r ≠ [] := by rintro rfl; simp at h2
        have hw : isWhiteSpace ((st.cur.buf ++ t).drop 1) = isWhiteSpace (st.cur.buf.drop 1) := by
          rw [hb]; exact isWhiteSpace_grow (valid_tail hvr hlt) hr
        rw [hw]
        have hcur := hg.cur
        rw [hb] at hcur
        refine .ok ⟨rfl, ⟨rfl, ?_, ?_⟩, fun h => by cases h⟩
        · simp only [MStats.update]
          split <;> omega
        · simp only; omega
      · refine (adv_later ht hg.valid (by have := hh.length; omega)).bind0 ?_
        rintro c _ ⟨⟨rfl, hv1⟩, rfl⟩
        refine ih (st := { st with cur := ⟨_, _⟩ }) hf' ⟨rfl, hv1, ?_, hg.scalar⟩
        have := hg.cur
        have := hh.length
        simp only [MStats.update, List.length_drop]
        omega

omit hx' ht in
theorem plainLazySpace_stuck {fuel : Nat} {st : PlainLazySt} (h : st.cur.buf = []) :
    plainLazySpace o fuel st = .err .Extend ∨ plainLazySpace o fuel st = .diverge := by
  cases fuel with
  | zero => exact .inr rfl
  | succ fuel => rw [plainLazySpace, h, cache_nil hx]; exact .inl rfl

theorem plainLazySpace_later {n fuel fuel' : Nat} (hf : fuel ≤ fuel') {st : PlainLazySt}
    (hg : PlainLazyGrown t n st (PlainLazySt.grow t st)) :
    Later No (PlainLazyGrown t n) (plainLazySpace o fuel st) (plainLazySpace o' fuel' (PlainLazySt.grow t st)) := by
  induction fuel generalizing fuel' st with
  | zero => trivial
  | succ fuel ih =>
    obtain ⟨fuel', rfl⟩ : ∃ k, fuel' = k + 1 := ⟨fuel' - 1, by omega⟩
    have hf' : fuel ≤ fuel' := by omega
    rw [plainLazySpace, plainLazySpace]
    refine cache_later hx hx' fun hh => ?_
    have hgb : (PlainLazySt.grow t st).cur.buf = st.cur.buf ++ t := rfl
    rw [hgb]
    refine Later.iteB (isBlank_grow hh.ne) (fun _ => ?_) fun _ => ?_
    · refine (adv_later ht hg.valid hh.length).bind0 ?_
      rintro c _ ⟨⟨rfl, hv1⟩, rfl⟩
      refine ih (st := { st with cur := ⟨_, _⟩ }) hf' ⟨rfl, hv1, ?_, hg.scalar⟩
      have := hg.cur
      have := hh.length
      simp only [MStats.update, List.length_drop]
      omega
    · refine Later.iteB (isBreak_grow hg.valid hh.ne) (fun _ => ?_) fun _ => .ok hg
      refine (line_later ht (c := st.cur) hg.valid hh.ne).bind ?_ ?_
      · intro a ha
        exact plainLazySpace_stuck hx ha
      · rintro c _ ⟨⟨rfl, hv2⟩, rfl⟩
        refine ih (st := { st with cur := ⟨_, _⟩ }) hf' ⟨rfl, hv2, ?_, hg.scalar⟩
        have := hg.cur
        have := breakLen_le st.cur.buf
        simp only [MStats.update, List.length_drop]
        omega

theorem plainLazyLoop_later {base : Str} {indent : Nat} {block : Bool} {n fuel fuel' : Nat} (hf : fuel ≤ fuel')
    {st : PlainLazySt} (hg : PlainLazyGrown t n st (PlainLazySt.grow t st)) :
    Later No (PlainLazyDone t n) (plainLazyLoop o base indent block fuel st)
      (plainLazyLoop o' (base ++ t) indent block fuel' (PlainLazySt.grow t st)) := by
  induction fuel generalizing fuel' st with
  | zero => trivial
  | succ fuel ih =>
    obtain ⟨fuel', rfl⟩ : ∃ k, fuel' = k + 1 := ⟨fuel' - 1, by omega⟩
    have hf' : fuel ≤ fuel' := by omega
    have hb : base.length + 1 ≤ (base ++ t).length + 1 := by simp only [List.length_append]; omega
    have hgb : (PlainLazySt.grow t st).cur.buf = st.cur.buf ++ t := rfl
    rw [plainLazyLoop, plainLazyLoop, hgb]
    refine cache_later hx hx' fun hh => ?_
    refine Later.iteB (isEmpty_grow hh.ne) (fun _ => .ok hg.done) fun _ => ?_
    refine Later.iteB rfl (fun _ => .ok hg.done) fun _ => ?_
    refine Later.iteB (by rw [isDocumentIndicator_grow hg.valid hh, startsWith_grow hh.ne]; rfl)
      (fun _ => .ok hg.done) fun _ => ?_
    refine Later.iteB (plainEnd_grow hg.valid (Has.mono (by decide) hh) block) (fun _ => .ok hg.done) fun _ => ?_
    refine (plainLazyWord_later hx hx' ht hb hg).bind ?_ ?_
    · rintro ⟨d, st1⟩ ⟨h0, h1⟩
      simp only at h0 h1
      subst h0
      simp only [Bool.false_eq_true, if_false]
      rcases plainLazySpace_stuck hx (fuel := base.length + 1)
        (st := { st1 with scalarStats := st1.cur.stats }) h1 with h | h
      · rw [h]; exact .inl rfl
      · rw [h]; exact .inr rfl
    · rintro ⟨d, st1⟩ _ ⟨rfl, h1, h2⟩
      simp only at h1 h2 ⊢
      refine Later.iteB rfl (fun _ => .ok h1) fun hd => ?_
      obtain ⟨-, h3, h4, h5⟩ := h2 hd
      refine (plainLazySpace_later hx hx' ht hb (st := { st1 with scalarStats := st1.cur.stats })
        ⟨rfl, h3, h4, by simp only; omega⟩).bind0 ?_
      rintro st2 _ ⟨rfl, h6, h7, h8⟩
      exact ih (st := { st2 with outdent := _ }) hf' ⟨rfl, h6, h7, h8⟩

theorem scanPlainLazy_later (hl : o'.lazy = o.lazy) {indent : Nat} {block : Bool} {c : Cur}
    (hv : validUtf8 c.buf = true) :
    Later No (Deferred t id) (scanPlainLazy o indent block c) (scanPlainLazy o' indent block ⟨c.buf ++ t, c.stats⟩) := by
  rw [scanPlainLazy_eq, scanPlainLazy_eq]
  refine (plainLazyLoop_later hx hx' ht (n := c.stats.read + c.buf.length)
    (by simp only [List.length_append]; omega) (st := { cur := c, scalarStats := c.stats })
    ⟨rfl, hv, rfl, by simp⟩).bind0 ?_
  rintro st _ ⟨rfl, h1, h2⟩
  have hs : (PlainLazySt.grow t st).scalarStats = st.scalarStats := rfl
  have hc : (PlainLazySt.grow t st).cur.stats = st.cur.stats := rfl
  simp only [hs, hc]
  have hl1 : st.scalarStats.read - c.stats.read ≤ c.buf.length := by omega
  have hl2 : st.cur.stats.read - c.stats.read ≤ c.buf.length := by omega
  rw [slice_grow ht hl2]
  refine Later.same.bind0 ?_
  rintro s _ rfl
  refine (skip_later ht (c := ⟨c.buf, st.scalarStats⟩) hv hl1).bind0 ?_
  rintro c2 _ ⟨⟨rfl, hv3⟩, -⟩
  refine .ok ⟨?_, hv3⟩
  rw [hl]
  rfl

/-! ## Block scalars -/

/-- The same scalar, of a text that does not go on; only of valid text that begins as it should. -/
def settleLazy : Lazy → Lazy
  | .block o s st i f => if validUtf8 s && (startsWith s b! '|' || startsWith s b! '>') then .block { o with extendable := false } s st i f else .block o s st i f
  | l => l

omit hx hx' ht in
theorem adv_drop {c c' : Cur} {n : Nat} (h : c.adv n = .ok c') : c'.buf <:+ c.buf := by
  unfold Cur.adv at h
  split at h
  · cases h; exact List.drop_suffix _ _
  · cases h

omit hx hx' ht in
theorem skipBlanksLoop_suffix {fuel : Nat} {c c' : Cur} (h : skipBlanksLoop o fuel c = .ok c') : c'.buf <:+ c.buf := by
  induction fuel generalizing c with
  | zero => cases h
  | succ fuel ih =>
    rw [skipBlanksLoop] at h
    split at h
    · obtain ⟨_, -, h⟩ := Out.bind_eq_ok.1 h
      obtain ⟨c1, h1, h⟩ := Out.bind_eq_ok.1 h
      exact (ih h).trans (adv_drop h1)
    · cases h; exact List.suffix_refl _

omit hx hx' ht in
theorem toBreak_suffix {fuel : Nat} {c c' : Cur} (h : toBreak o fuel c = .ok c') : c'.buf <:+ c.buf := by
  induction fuel generalizing c with
  | zero => cases h
  | succ fuel ih =>
    rw [toBreak] at h
    split at h
    · cases h; exact List.suffix_refl _
    · obtain ⟨_, -, h⟩ := Out.bind_eq_ok.1 h
      obtain ⟨c1, h1, h⟩ := Out.bind_eq_ok.1 h
      exact (ih h).trans (adv_drop h1)

omit hx hx' ht in
theorem skipBlanks_suffix {c c' : Cur} (h : skipBlanks o c = .ok c') : c'.buf <:+ c.buf := by
  unfold skipBlanks at h
  obtain ⟨_, -, h⟩ := Out.bind_eq_ok.1 h
  obtain ⟨c1, h1, h⟩ := Out.bind_eq_ok.1 h
  split at h
  · exact (toBreak_suffix h).trans (skipBlanksLoop_suffix h1)
  · cases h; exact skipBlanksLoop_suffix h1

omit hx hx' ht in
theorem headTo_suffix {c : Cur} {r : ChompStyle × Option Nat × Cur} (h : headTo o c = .ok r) : r.2.2.buf <:+ c.buf := by
  unfold headTo at h
  obtain ⟨_, -, h⟩ := Out.bind_eq_ok.1 h
  obtain ⟨c1, h1, h⟩ := Out.bind_eq_ok.1 h
  obtain ⟨⟨ch, ex, c2⟩, h2, h⟩ := Out.bind_eq_ok.1 h
  obtain ⟨c3, h3, h⟩ := Out.bind_eq_ok.1 h
  have h4 : c3.buf <:+ c.buf := by
    refine (skipBlanks_suffix h3).trans (.trans ?_ (adv_drop h1))
    unfold scanHeaders at h2
    obtain ⟨_, -, h2⟩ := Out.bind_eq_ok.1 h2
    obtain ⟨c4, h4, h2⟩ := Out.bind_eq_ok.1 h2
    cases h2
    exact adv_drop h4
  split at h
  · obtain ⟨_, -, h⟩ := Out.bind_eq_ok.1 h
    cases h
  · obtain ⟨_, -, h⟩ := Out.bind_eq_ok.1 h
    cases h
    exact h4

theorem blockLazyLoop_later {n indent fuel fuel' : Nat} (hi : 1 ≤ indent) (hf : fuel ≤ fuel') {c : Cur}
    (hg : At t n c ⟨c.buf ++ t, c.stats⟩) (hn : c.buf ≠ []) :
    Later No (fun a b => At t n a b ∧ c.stats.read ≤ a.stats.read) (blockLazyLoop o indent fuel c) (blockLazyLoop o' indent fuel' ⟨c.buf ++ t, c.stats⟩) := by
  induction fuel generalizing fuel' c with
  | zero => trivial
  | succ fuel ih =>
    obtain ⟨fuel', rfl⟩ : ∃ k, fuel' = k + 1 := ⟨fuel' - 1, by omega⟩
    have hf' : fuel ≤ fuel' := by omega
    rw [blockLazyLoop, blockLazyLoop]
    refine Later.iteB (by simp only [isEmpty_grow hn]) (fun _ => ?_) fun _ => .ok ⟨hg, Nat.le_refl _⟩
    refine cache_later hx hx' fun hh => ?_
    refine (toBreak_later hx hx' ht (by simp) hg).bind ?_ ?_
    · intro c1 h1
      unfold eatBreak
      rw [h1, cache_nil hx]
      exact .inl rfl
    · rintro c1 _ ⟨⟨rfl, h1, h2⟩, hr1, h3, h4⟩
      have hl := lineEndWith_later hx hx' ht (fun _ => 0) (n := n) (indent := indent) hi ⟨rfl, h1, h2⟩ h4
      rw [← bind_assoc, ← bind_assoc]
      refine hl.bind0 ?_
      rintro ⟨c2, k⟩ _ ⟨rfl, ⟨-, h5, h6⟩, hr2, h7⟩
      refine (ih hf' ⟨rfl, h5, h6⟩ h7).mono (fun _ h => h) fun a b h => ⟨h.1, ?_⟩
      have := h.2
      simp only at hr1 hr2 this
      omega

omit hx hx' ht in
theorem blockLazyLoop_column {indent fuel : Nat} {c : Cur} (hc : c.stats.column ≠ indent) :
    blockLazyLoop o indent (fuel + 1) c = .ok c := by
  rw [blockLazyLoop, if_neg (by simp [hc])]

omit hx hx' in
/-- The position after a line whose break is whole. -/
theorem lineWhole_later {n : Nat} {c : Cur} (hg : At t n c ⟨c.buf ++ t, c.stats⟩) (hn : c.buf ≠ []) (hc : c.buf ≠ [0x0D]) :
    Later No (fun a b => At t n a b ∧ a.stats.column = 0 ∧ c.stats.read ≤ a.stats.read) c.line (Cur.line ⟨c.buf ++ t, c.stats⟩) := by
  unfold Cur.line
  simp only
  rw [breakLen_grow hg.valid hn hc, boundary_grow ht (breakLen_le _)]
  by_cases hb : isBoundary c.buf (breakLen c.buf) = true
  · rw [if_pos hb, if_pos hb]
    refine .ok ⟨⟨by rw [drop_grow (breakLen_le _)], validUtf8_drop hg.valid hb, ?_⟩, rfl, by simp [MStats.update]⟩
    have := hg.read
    have := breakLen_le c.buf
    simp only [MStats.update, List.length_drop]
    omega
  · rw [if_neg hb, if_neg hb]; exact .panic

theorem scanBlockLazy_later (hl : o'.lazy = o.lazy) {baseIndent : Nat} {fold : Bool} {c : Cur}
    (hv : validUtf8 c.buf = true) (hr : 0x0D ∉ c.buf)
    (hi : startsWith c.buf b! '|' = true ∨ startsWith c.buf b! '>' = true) :
    Later No (Deferred t settleLazy) (scanBlockLazy o baseIndent fold c)
      (scanBlockLazy o' baseIndent fold ⟨c.buf ++ t, c.stats⟩) := by
  have hend : ∀ (c2 c2' : Cur), At t (c.stats.read + c.buf.length) c2 c2' → c.stats.read < c2.stats.read →
      Later No (Deferred t settleLazy)
        (slice c.buf 0 (c.buf.length - c2.buf.length) >>= fun s => .ok (.block o s c.stats baseIndent fold, c2))
        (slice (c.buf ++ t) 0 ((c.buf ++ t).length - c2'.buf.length) >>= fun s =>
          .ok (.block o' s c.stats baseIndent fold, c2')) := by
    rintro c2 _ ⟨rfl, h1, h2⟩ hlt
    simp only
    rw [lengths_grow, slice_grow ht (by omega)]
    refine (Later.same.and_ok fun _ h => slice_begins hv hi (by omega) h).bind0 ?_
    rintro s _ ⟨rfl, hs⟩
    refine .ok ⟨?_, h1⟩
    simp only [settleLazy, if_pos hs]
    congr 2
    obtain ⟨x, l⟩ := o'
    simp only at hl hx'
    rw [hl, hx']
  unfold scanBlockLazy
  rw [blockHeader_eq, blockHeader_eq]
  simp only [bind_assoc]
  refine ((headTo_later hx hx' ht (n := c.stats.read + c.buf.length) ⟨rfl, hv, rfl⟩).and_ok fun _ => headTo_suffix).bind0 ?_
  rintro ⟨chomp, explicit, c1⟩ _ ⟨⟨rfl, ⟨-, h1, h2⟩, h3, h4, h5⟩, hsx⟩
  simp only [Out.ok_bind] at h1 h2 h3 h4 h5 hsx ⊢
  cases explicit with
  | some k =>
    refine (lineWhole_later ht ⟨rfl, h1, h2⟩ h5 ?_).bind0 ?_
    · intro h
      refine hr (hsx.subset ?_)
      rw [h]; simp
    · rintro c2 _ ⟨⟨rfl, h6, h7⟩, h8, h8'⟩
      have hk := h3 k rfl
      simp only [blockIndent, Out.ok_bind]
      rw [blockLazyLoop_column (by simp only [h8]; omega), blockLazyLoop_column (by simp only [h8]; omega)]
      exact hend _ _ ⟨rfl, h6, h7⟩ (by omega)
  | none =>
    simp only [blockIndent]
    refine (lineAt ht ⟨rfl, h1, h2⟩ h5).bind ?_ ?_
    · intro a ha
      rw [detectIndent_stuck hx ha.1]
      exact .inl rfl
    · rintro c2 _ ⟨⟨rfl, h6, h7⟩, hc2⟩
      refine (detectIndent_later hx hx' ht ⟨rfl, h6, h7⟩).bind0 ?_
      rintro d _ ⟨rfl, h8, h9, h10, h11⟩
      refine (blockLazyLoop_later hx hx' ht h11 (by simp) ⟨rfl, h8.valid, h8.read⟩ h10).bind0 ?_
      rintro c3 _ ⟨h12, h13⟩
      have hl2 : c1.stats.read ≤ c2.stats.read := by rw [hc2]; simp [MStats.update]
      exact hend _ _ h12 (by omega)

omit hx hx' ht in
/-- Evaluating a block scalar asks for more text, or gives what it gives when the text does not go on. -/
theorem settle_value (l : Lazy) : l.intoToken = .err .Extend ∨ (settleLazy l).intoToken = l.intoToken := by
  cases l with
  | flow => exact .inr rfl
  | plain => exact .inr rfl
  | block o s st i f =>
    simp only [settleLazy]
    by_cases hc : (validUtf8 s && (startsWith s b! '|' || startsWith s b! '>')) = true
    · rw [if_pos hc]
      simp only [Bool.and_eq_true, Bool.or_eq_true] at hc
      cases hx : o.extendable with
      | false =>
        right
        congr 2
        rw [← hx]
      | true =>
        obtain ⟨b, r, hs, hb⟩ : ∃ b r, s = b :: r ∧ (b = 124 ∨ b = 62) := by
          cases s with
          | nil => simp [startsWith] at hc
          | cons b r => exact ⟨b, r, rfl, by simpa [startsWith] using hc.2⟩
        have h1 := scanBlockEager_later (o' := { o with extendable := false }) (t := []) hx rfl (fun _ _ h => by cases h)
          (baseIndent := i) (fold := f) (c := ⟨s, st⟩) hc.1
        have h2 := scanBlockEager_sat (P := True) (opts := o) (baseIndent := i) (fold := f) (c := ⟨s, st⟩) trivial
          (by rw [hs]; exact List.cons_ne_nil _ _) (by
            rw [hs]
            rcases hb with rfl | rfl <;> rfl)
        rw [List.append_nil] at h1
        simp only [Lazy.intoToken]
        generalize scanBlockEager o i f ⟨s, st⟩ = x at h1 h2
        cases x with
        | ok a =>
          rcases h1 with h1 | ⟨b, h1, h3, -⟩
          · exact h1.elim
          · right
            rw [h1, h3]
            rfl
        | err e =>
          rcases h1 with rfl | h1
          · exact .inl rfl
          · right; rw [h1]
        | panic => right; rw [show _ = _ from h1]
        | diverge => exact h2.elim
    · rw [if_neg hc]
      exact .inr rfl

end Yary.Chunk
