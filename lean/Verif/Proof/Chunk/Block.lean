import Verif.Proof.Chunk.Plain

/-! # Block scalars at the beginning of a text -/

namespace Yary.Chunk

open Out (Sat)

variable {o o' : SFlags} {t : Str} (hx : o.extendable = true) (hx' : o'.extendable = false) (ht : HeadOk t)

/-- The cursor on the text, for one on the beginning; `n` is how much will have been read at its end. -/
structure At (t : Str) (n : Nat) (a b : Cur) : Prop where
  eq : b = ⟨a.buf ++ t, a.stats⟩
  valid : validUtf8 a.buf = true
  read : a.stats.read + a.buf.length = n

theorem width_fits {s : Str} (hv : validUtf8 s = true) {k : Nat} (hk : k ≤ s.length) :
    k + widthOf (s.drop k) ≤ s.length := by
  obtain ⟨l, rfl⟩ := (validUtf8_iff s).1 hv
  clear hv
  induction l generalizing k with
  | nil =>
    have : k = 0 := by simpa [Spec.utf8] using hk
    subst this
    simp [Spec.utf8, widthOf]
  | cons c l ih =>
    obtain ⟨b, r, hb, h1, h2, h3, h4⟩ := utf8Char_shape c
    have hu : Spec.utf8 (c :: l) = (b :: r) ++ Spec.utf8 l := by simp [Spec.utf8, hb]
    rw [hu] at hk ⊢
    simp only [List.length_append, List.length_cons] at hk ⊢
    rcases Nat.eq_zero_or_pos k with rfl | h0
    · rw [List.drop_zero, List.cons_append, h4]
      omega
    · rcases Nat.lt_or_ge k (r.length + 1) with h | h
      · rw [List.drop_append_of_le_length (by simp; omega)]
        obtain ⟨k, rfl⟩ : ∃ j, k = j + 1 := ⟨k - 1, by omega⟩
        rw [List.drop_succ_cons]
        cases hd : r.drop k with
        | nil =>
          exfalso
          rw [List.drop_eq_nil_iff] at hd
          omega
        | cons x y =>
          have hx := h3 x (List.mem_of_mem_drop (i := k) (by rw [hd]; exact List.mem_cons_self))
          have : widthOf (x :: y ++ Spec.utf8 l) = 0 := by
            simp only [List.cons_append, widthOf]
            rw [if_neg (by byte_omega), if_neg (by simp; byte_omega), if_neg (by simp; byte_omega),
              if_neg (by simp; byte_omega)]
          rw [this]
          omega
      · have := ih (k := k - (r.length + 1)) (by omega)
        rw [List.drop_append, List.drop_of_length_le (by simpa using h), List.nil_append, List.length_cons]
        omega

theorem widthOf_grow {s : Str} (hn : s ≠ []) : widthOf (s ++ t) = widthOf s := by
  cases s with
  | nil => exact absurd rfl hn
  | cons a s => rfl

include ht

theorem advAt {n k : Nat} {c : Cur} (hg : At t n c ⟨c.buf ++ t, c.stats⟩) (hn : k ≤ c.buf.length) :
    Later No (fun a b => At t n a b ∧ a = ⟨c.buf.drop k, c.stats.update k 0 k⟩) (c.adv k)
      (Cur.adv ⟨c.buf ++ t, c.stats⟩ k) := by
  refine (adv_later ht hg.valid hn).mono (fun _ h => h) ?_
  rintro a b ⟨⟨h1, h2⟩, rfl⟩
  refine ⟨⟨h1, h2, ?_⟩, rfl⟩
  have := hg.read
  simp only [MStats.update, List.length_drop]
  omega

theorem lineAt {n : Nat} {c : Cur} (hg : At t n c ⟨c.buf ++ t, c.stats⟩) (hn : c.buf ≠ []) :
    Later (fun a => a.buf = [] ∧ a.stats.column = 0)
      (fun a b => At t n a b ∧ a = ⟨c.buf.drop (breakLen c.buf), c.stats.update (breakLen c.buf) 1 0⟩) c.line
      (Cur.line ⟨c.buf ++ t, c.stats⟩) := by
  have hcol : Sat True c.line (fun a => a.stats.column = 0) := by
    unfold Cur.line
    split
    · rfl
    · trivial
  refine ((line_later ht hg.valid hn).and hcol).mono (fun _ h => h) ?_
  rintro a b ⟨⟨⟨h1, h2⟩, rfl⟩, -⟩
  refine ⟨⟨h1, h2, ?_⟩, rfl⟩
  have := hg.read
  have := breakLen_le c.buf
  simp only [MStats.update, List.length_drop]
  omega

/-! ## The header -/

omit ht in
theorem headerDigit_grow {s : Str} (h : 2 ≤ s.length) : headerDigit (s ++ t) = headerDigit s := by
  match s, h with
  | a :: b :: s, _ => rfl

omit ht in
theorem headerHas_grow {s : Str} {b : Byte} (h : 2 ≤ s.length) : headerHas (s ++ t) b = headerHas s b := by
  match s, h with
  | a :: b :: s, _ => rfl

omit ht in
theorem headerDigit_digit {s : Str} {i : Byte} (h : headerDigit s = some i) : isDigit i = true := by
  unfold headerDigit at h
  split at h
  · cases h
  · split at h
    · cases h; assumption
    · split at h
      · split at h
        · cases h; assumption
        · cases h
      · cases h

include hx hx'

theorem scanHeaders_later {n : Nat} {c : Cur} (hg : At t n c ⟨c.buf ++ t, c.stats⟩) :
    Later No (fun a b => b = (a.1, a.2.1, ⟨a.2.2.buf ++ t, a.2.2.stats⟩) ∧ At t n a.2.2 b.2.2 ∧
      (∀ k, a.2.1 = some k → 1 ≤ k) ∧ c.stats.read ≤ a.2.2.stats.read) (scanHeaders o c)
      (scanHeaders o' ⟨c.buf ++ t, c.stats⟩) := by
  unfold scanHeaders
  refine cache_later hx hx' fun hh => ?_
  have h2 := hh.length
  simp only [headerDigit_grow h2, headerHas_grow h2]
  refine (advAt ht hg ?_).bind0 ?_
  · (repeat' split) <;> omega
  · rintro a _ ⟨⟨rfl, h3, h4⟩, rfl⟩
    refine .ok ⟨rfl, ⟨rfl, h3, h4⟩, ?_, by simp [MStats.update]⟩
    intro k hk
    simp only [Option.bind_eq_some_iff] at hk
    obtain ⟨i, hi, hk⟩ := hk
    have hd := headerDigit_digit hi
    split at hk
    · cases hk
    · rename_i h0
      cases hk
      simp only [isDigit, Bool.and_eq_true, decide_eq_true_eq] at hd
      have : i ≠ 48 := h0
      have := hd.1
      byte_omega

theorem skipBlanksLoop_later {n fuel fuel' : Nat} (hf : fuel ≤ fuel') {c : Cur} (hg : At t n c ⟨c.buf ++ t, c.stats⟩) :
    Later (fun a => a.buf = []) (fun a b => At t n a b ∧ c.stats.read ≤ a.stats.read ∧ a.buf ≠ [])
      (skipBlanksLoop o fuel c) (skipBlanksLoop o' fuel' ⟨c.buf ++ t, c.stats⟩) := by
  induction fuel generalizing fuel' c with
  | zero => trivial
  | succ fuel ih =>
    obtain ⟨fuel', rfl⟩ : ∃ k, fuel' = k + 1 := ⟨fuel' - 1, by omega⟩
    have hf' : fuel ≤ fuel' := by omega
    rw [skipBlanksLoop, skipBlanksLoop]
    by_cases hn : c.buf = []
    · rw [if_neg (by rw [hn]; decide)]
      exact .stuck hn
    · refine Later.iteB (isBlank_grow hn) (fun _ => ?_) fun _ => .ok ⟨hg, Nat.le_refl _, hn⟩
      refine cache_later hx hx' fun hh => ?_
      refine (advAt ht hg hh.length).bind0 ?_
      rintro c1 _ ⟨⟨rfl, h1, h2⟩, rfl⟩
      refine (ih hf' ⟨rfl, h1, h2⟩).mono (fun _ h => h) fun a b h => ⟨h.1, ?_, h.2.2⟩
      have := h.2.1
      simp only [MStats.update] at this
      omega

theorem toBreak_later {n fuel fuel' : Nat} (hf : fuel ≤ fuel') {c : Cur} (hg : At t n c ⟨c.buf ++ t, c.stats⟩) :
    Later (fun a => a.buf = [])
      (fun a b => At t n a b ∧ c.stats.read ≤ a.stats.read ∧ a.buf ≠ [] ∧ isBreak a.buf = true)
      (toBreak o fuel c) (toBreak o' fuel' ⟨c.buf ++ t, c.stats⟩) := by
  induction fuel generalizing fuel' c with
  | zero => trivial
  | succ fuel ih =>
    obtain ⟨fuel', rfl⟩ : ∃ k, fuel' = k + 1 := ⟨fuel' - 1, by omega⟩
    have hf' : fuel ≤ fuel' := by omega
    rw [toBreak, toBreak]
    by_cases hn : c.buf = []
    · rw [if_pos (by rw [hn]; rfl)]
      exact .stuck hn
    · refine Later.iteB (isBreakZ_grow hg.valid hn) (fun hb => .ok ⟨hg, Nat.le_refl _, hn, ?_⟩) fun _ => ?_
      · simpa [isBreakZ, hn] using hb
      refine cache_later hx hx' fun hh => ?_
      refine (advAt ht hg hh.length).bind0 ?_
      rintro c1 _ ⟨⟨rfl, h1, h2⟩, rfl⟩
      refine (ih hf' ⟨rfl, h1, h2⟩).mono (fun _ h => h) fun a b h => ⟨h.1, ?_, h.2.2⟩
      have := h.2.1
      simp only [MStats.update] at this
      omega

theorem skipBlanks_later {n : Nat} {c : Cur} (hg : At t n c ⟨c.buf ++ t, c.stats⟩) :
    Later (fun a => a.buf = []) (fun a b => At t n a b ∧ c.stats.read ≤ a.stats.read ∧ a.buf ≠ []) (skipBlanks o c)
      (skipBlanks o' ⟨c.buf ++ t, c.stats⟩) := by
  unfold skipBlanks
  refine cache_later hx hx' fun hh => ?_
  refine (skipBlanksLoop_later hx hx' ht (by simp) hg).bindE ?_ ?_
  · intro a ha y
    rw [if_neg (by rw [ha]; decide)]
    exact .stuck ha
  · rintro a _ ⟨⟨rfl, h1, h2⟩, h3, h4⟩
    refine Later.iteB (startsWith_grow h4 ..) (fun _ => ?_) fun _ => .ok ⟨⟨rfl, h1, h2⟩, h3, h4⟩
    refine (toBreak_later hx hx' ht (by simp) ⟨rfl, h1, h2⟩).mono (fun _ h => h) fun a b h => ⟨h.1, ?_, h.2.2.1⟩
    have := h.2.1
    omega

omit hx hx' ht in
/-- The header up to the end of its line. -/
def headTo (opts : SFlags) (c : Cur) : Out ScanError (ChompStyle × Option Nat × Cur) := do
  cache opts 1 c.buf
  let c ← c.adv 1
  let (chomp, explicit, c) ← scanHeaders opts c
  let c ← skipBlanks opts c
  cache opts 1 c.buf
  if !isWhiteSpaceZ c.buf then .err .InvalidBlockScalar
  else .ok (chomp, explicit, c)

omit hx hx' ht in
theorem blockHeader_eq (opts : SFlags) (c : Cur) : blockHeader opts c =
    headTo opts c >>= fun r => r.2.2.line >>= fun c => .ok (r.1, r.2.1, c) := by
  unfold blockHeader headTo
  simp only [bind_assoc]
  congr 1; funext _
  congr 1; funext c1
  congr 1; funext ⟨ch, ex, c2⟩
  simp only [bind_assoc]
  congr 1; funext c3
  congr 1; funext _
  split <;> rfl

theorem headTo_later {n : Nat} {c : Cur} (hg : At t n c ⟨c.buf ++ t, c.stats⟩) :
    Later No (fun a b => b = (a.1, a.2.1, ⟨a.2.2.buf ++ t, a.2.2.stats⟩) ∧ At t n a.2.2 b.2.2 ∧
      (∀ k, a.2.1 = some k → 1 ≤ k) ∧ c.stats.read < a.2.2.stats.read ∧ a.2.2.buf ≠ []) (headTo o c)
      (headTo o' ⟨c.buf ++ t, c.stats⟩) := by
  unfold headTo
  refine cache_later hx hx' fun hh => ?_
  refine (advAt ht hg hh.length).bind0 ?_
  rintro c1 _ ⟨⟨rfl, h1, h2⟩, hc⟩
  refine (scanHeaders_later hx hx' ht ⟨rfl, h1, h2⟩).bind0 ?_
  rintro ⟨ch, ex, c2⟩ _ ⟨rfl, ⟨-, h3, h4⟩, h5, h6⟩
  simp only at h3 h4 h5 h6 ⊢
  refine (skipBlanks_later hx hx' ht ⟨rfl, h3, h4⟩).bind ?_ ?_
  · intro a ha
    rw [ha, cache_nil hx]
    exact .inl rfl
  · rintro c3 _ ⟨⟨rfl, h7, h8⟩, h9, h10⟩
    refine cache_later hx hx' fun hh => ?_
    simp only
    refine Later.iteB (by rw [isWhiteSpaceZ_grow h7 h10]) (fun _ => .err) fun _ =>
      .ok ⟨rfl, ⟨rfl, h7, h8⟩, h5, ?_, h10⟩
    subst hc
    simp only [MStats.update] at h6
    simp only
    omega

/-! ## The indentation -/

omit hx hx' ht in
/-- The state on the text, for one on the beginning. -/
def DetectSt.grow (t : Str) (st : DetectSt) : DetectSt := { st with cur := ⟨st.cur.buf ++ t, st.cur.stats⟩ }

theorem detectBlanks_later {n fuel fuel' : Nat} (hf : fuel ≤ fuel') {st : DetectSt}
    (hg : At t n st.cur ⟨st.cur.buf ++ t, st.cur.stats⟩) :
    Later (fun a => a.cur.buf = [])
      (fun a b => b = DetectSt.grow t a ∧ At t n a.cur b.cur ∧ st.cur.stats.read ≤ a.cur.stats.read)
      (detectBlanks o fuel st) (detectBlanks o' fuel' (DetectSt.grow t st)) := by
  induction fuel generalizing fuel' st with
  | zero => trivial
  | succ fuel ih =>
    obtain ⟨fuel', rfl⟩ : ∃ k, fuel' = k + 1 := ⟨fuel' - 1, by omega⟩
    have hf' : fuel ≤ fuel' := by omega
    have hgb : (DetectSt.grow t st).cur.buf = st.cur.buf ++ t := rfl
    rw [detectBlanks, detectBlanks, hgb]
    by_cases hn : st.cur.buf = []
    · rw [if_neg (by rw [hn]; decide)]
      exact .stuck hn
    · refine Later.iteB (isBlank_grow hn) (fun _ => ?_) fun _ => .ok ⟨rfl, hg, Nat.le_refl _⟩
      refine cache_later hx hx' fun hh => ?_
      refine Later.iteB (startsWith_grow hn ..) (fun _ => .err) fun _ => ?_
      refine (advAt ht hg hh.length).bind0 ?_
      rintro c1 _ ⟨⟨rfl, h1, h2⟩, hc⟩
      refine (ih (st := { st with cur := c1, canBorrow := st.canBorrow && !decide (0 < st.lines) })
        hf' ⟨rfl, h1, h2⟩).mono (fun _ h => h) fun a b h => ⟨h.1, h.2.1, ?_⟩
      have := h.2.2
      subst hc
      simp only [MStats.update] at this
      omega

theorem detectLoop_later {n fuel fuel' : Nat} (hf : fuel ≤ fuel') {st : DetectSt}
    (hg : At t n st.cur ⟨st.cur.buf ++ t, st.cur.stats⟩) :
    Later No
      (fun a b => b = DetectSt.grow t a ∧ At t n a.cur b.cur ∧ st.cur.stats.read ≤ a.cur.stats.read ∧ a.cur.buf ≠ [])
      (detectLoop o fuel st) (detectLoop o' fuel' (DetectSt.grow t st)) := by
  induction fuel generalizing fuel' st with
  | zero => trivial
  | succ fuel ih =>
    obtain ⟨fuel', rfl⟩ : ∃ k, fuel' = k + 1 := ⟨fuel' - 1, by omega⟩
    have hf' : fuel ≤ fuel' := by omega
    rw [detectLoop, detectLoop]
    refine cache_later hx hx' fun hh => ?_
    refine (detectBlanks_later hx hx' ht (by simp [DetectSt.grow]) hg).bind ?_ ?_
    · intro a ha
      simp only
      rw [ha, cache_nil hx]
      exact .inl rfl
    · rintro st1 _ ⟨rfl, ⟨-, h1, h2⟩, h3⟩
      refine cache_later hx hx' fun hh1 => ?_
      have hgb : (DetectSt.grow t st1).cur = ⟨st1.cur.buf ++ t, st1.cur.stats⟩ := rfl
      simp only [hgb]
      refine Later.iteB (isBreak_grow h1 hh1.ne) (fun _ => ?_) fun _ => .ok ⟨rfl, ⟨rfl, h1, h2⟩, h3, hh1.ne⟩
      refine (lineAt ht ⟨rfl, h1, h2⟩ hh1.ne).bind ?_ ?_
      · intro a ha
        cases fuel with
        | zero => exact .inr rfl
        | succ fuel => rw [detectLoop, ha.1, cache_nil hx]; exact .inl rfl
      · rintro c1 _ ⟨⟨rfl, h4, h5⟩, hc⟩
        refine (ih (st := { cur := c1, indent := _, lines := st1.lines + 1, canBorrow := st1.canBorrow })
          hf' ⟨rfl, h4, h5⟩).mono (fun _ h => h) fun a b h => ⟨h.1, h.2.1, ?_, h.2.2.2⟩
        have := h.2.2.1
        subst hc
        simp only [MStats.update] at this
        omega

theorem detectIndent_later {n k : Nat} {c : Cur} (hg : At t n c ⟨c.buf ++ t, c.stats⟩) :
    Later No
      (fun a b => b = DetectSt.grow t a ∧ At t n a.cur b.cur ∧ c.stats.read ≤ a.cur.stats.read ∧ a.cur.buf ≠ [] ∧
        1 ≤ a.indent)
      (detectIndent o k c) (detectIndent o' k ⟨c.buf ++ t, c.stats⟩) := by
  unfold detectIndent
  refine (detectLoop_later hx hx' ht (st := { cur := c }) (by simp) hg).bind0 ?_
  rintro a _ ⟨rfl, h2, h3, h4⟩
  refine .ok ⟨rfl, ⟨rfl, h2.valid, h2.read⟩, h3, h4, ?_⟩
  simp only
  split <;> omega

omit hx' ht in
theorem detectIndent_stuck {k : Nat} {c : Cur} (h : c.buf = []) : detectIndent o k c = .err .Extend := by
  unfold detectIndent
  rw [detectLoop]
  simp only [h]
  rw [cache_nil hx]
  rfl

theorem scanIndentLoop_later {n indent fuel fuel' : Nat} (hf : fuel ≤ fuel') {c : Cur}
    (hg : At t n c ⟨c.buf ++ t, c.stats⟩) (hn : c.buf ≠ []) {lines : Nat} :
    Later No
      (fun a b => b = (⟨a.1.buf ++ t, a.1.stats⟩, a.2) ∧ At t n a.1 b.1 ∧ c.stats.read ≤ a.1.stats.read ∧ a.1.buf ≠ [])
      (scanIndentLoop o indent fuel c lines) (scanIndentLoop o' indent fuel' ⟨c.buf ++ t, c.stats⟩ lines) := by
  induction fuel generalizing fuel' c lines with
  | zero => trivial
  | succ fuel ih =>
    obtain ⟨fuel', rfl⟩ : ∃ k, fuel' = k + 1 := ⟨fuel' - 1, by omega⟩
    have hf' : fuel ≤ fuel' := by omega
    rw [scanIndentLoop, scanIndentLoop]
    simp only
    refine Later.iteB (by rw [isWhiteSpace_grow hg.valid hn]) (fun _ => ?_)
      fun _ => .ok ⟨rfl, hg, Nat.le_refl _, hn⟩
    refine Later.iteB (startsWith_grow hn ..) (fun _ => ?_) fun _ => ?_
    · refine (advAt ht hg (by cases h : c.buf <;> simp_all)).bind0 ?_
      rintro c1 _ ⟨⟨rfl, h1, h2⟩, hc⟩
      refine cache_later hx hx' fun hh => ?_
      refine (ih hf' ⟨rfl, h1, h2⟩ hh.ne).mono (fun _ h => h) fun a b h => ⟨h.1, h.2.1, ?_, h.2.2.2⟩
      have := h.2.2.1
      subst hc
      simp only [MStats.update] at this
      omega
    · refine Later.iteB (startsWith_grow hn ..) (fun _ => .err) fun _ => ?_
      refine (lineAt ht hg hn).bind ?_ ?_
      · intro a ha
        rw [ha.1, cache_nil hx]
        exact .inl rfl
      · rintro c1 _ ⟨⟨rfl, h1, h2⟩, hc⟩
        refine cache_later hx hx' fun hh => ?_
        refine (ih hf' ⟨rfl, h1, h2⟩ hh.ne).mono (fun _ h => h) fun a b h => ⟨h.1, h.2.1, ?_, h.2.2.2⟩
        have := h.2.2.1
        subst hc
        simp only [MStats.update] at this
        omega

theorem scanIndent_later {n indent : Nat} {c : Cur} (hg : At t n c ⟨c.buf ++ t, c.stats⟩)
    (hn : c.buf ≠ []) {lines : Nat} :
    Later No
      (fun a b => b = (⟨a.1.buf ++ t, a.1.stats⟩, a.2) ∧ At t n a.1 b.1 ∧ c.stats.read ≤ a.1.stats.read ∧ a.1.buf ≠ [])
      (scanIndent o indent c lines) (scanIndent o' indent ⟨c.buf ++ t, c.stats⟩ lines) := by
  unfold scanIndent
  refine Later.ite Iff.rfl (fun _ => .ok ⟨rfl, hg, Nat.le_refl _, hn⟩) fun _ => ?_
  refine cache_later hx hx' fun hh => ?_
  exact scanIndentLoop_later hx hx' ht (by simp) hg hn

/-- The end of a line of content, and the indentation of the next. -/
theorem lineEndWith_later (f : Nat → Nat) {n indent : Nat} (hi : 1 ≤ indent) {c : Cur} (hg : At t n c ⟨c.buf ++ t, c.stats⟩)
    (hb : isBreak c.buf = true) :
    Later No
      (fun a b => b = (⟨a.1.buf ++ t, a.1.stats⟩, a.2) ∧ At t n a.1 b.1 ∧ c.stats.read < a.1.stats.read ∧ a.1.buf ≠ [])
      (eatBreak o c 0 >>= fun r => scanIndent o indent r.1 (f r.2))
      (eatBreak o' ⟨c.buf ++ t, c.stats⟩ 0 >>= fun r => scanIndent o' indent r.1 (f r.2)) := by
  unfold eatBreak
  simp only [bind_assoc]
  refine cache_later hx hx' fun hh => ?_
  rw [if_pos hb, if_pos (by rw [isBreak_grow hg.valid hh.ne]; exact hb)]
  simp only [bind_assoc]
  refine (lineAt ht hg hh.ne).bind ?_ ?_
  · intro a ha
    rw [Out.ok_bind]
    unfold scanIndent
    rw [if_neg (by simp only [ha.2]; omega)]
    simp only [ha.1]
    rw [cache_nil hx]
    exact .inl rfl
  · rintro c1 _ ⟨⟨rfl, h1, h2⟩, hc⟩
    rw [Out.ok_bind, Out.ok_bind]
    by_cases hn : c1.buf = []
    · unfold scanIndent
      simp only [hn]
      rw [if_neg (by rw [hc]; simp only [MStats.update]; simp; omega), cache_nil hx]
      exact .extend
    · refine (scanIndent_later hx hx' ht ⟨rfl, h1, h2⟩ hn).mono (fun _ h => h) fun a b h => ⟨h.1, h.2.1, ?_, h.2.2.2⟩
      have := h.2.2.1
      have := breakLen_pos.2 hb
      subst hc
      simp only [MStats.update] at *
      omega

theorem lineEnd_later {n indent : Nat} (hi : 1 ≤ indent) {c : Cur} (hg : At t n c ⟨c.buf ++ t, c.stats⟩)
    (hb : isBreak c.buf = true) :
    Later No
      (fun a b => b = (⟨a.1.buf ++ t, a.1.stats⟩, a.2) ∧ At t n a.1 b.1 ∧ c.stats.read < a.1.stats.read ∧ a.1.buf ≠ [])
      (eatBreak o c 0 >>= fun r => scanIndent o indent r.1 r.2)
      (eatBreak o' ⟨c.buf ++ t, c.stats⟩ 0 >>= fun r => scanIndent o' indent r.1 r.2) :=
  lineEndWith_later hx hx' ht id hi hg hb

/-! ## The lines -/

omit hx hx' ht in
/-- The state on the text, for one on the beginning. -/
def BlockSt.grow (t : Str) (st : BlockSt) : BlockSt := { st with cur := ⟨st.cur.buf ++ t, st.cur.stats⟩ }

omit hx hx' ht in
/-- The same progress in a block scalar; `n` is how much will have been read at the end, and `base` what is
read from the start of the scalar. -/
structure BlockGrown (t : Str) (base : Str) (n : Nat) (a b : BlockSt) : Prop where
  eq : b = BlockSt.grow t a
  cur : At t n a.cur b.cur
  ne : a.cur.buf ≠ []
  len : a.cur.buf.length ≤ base.length
  stop : a.canBorrow = true → a.stop ≤ base.length
  lines : a.canBorrow = true → 0 < a.lines → a.stop + 1 < base.length

omit hx hx' in
theorem trapdoor_later {base : Str} {n : Nat} {st : BlockSt} (hg : BlockGrown t base n st (BlockSt.grow t st)) :
    Later No (fun a b => BlockGrown t base n a b ∧ a.cur = st.cur) (st.trapdoor base)
      ((BlockSt.grow t st).trapdoor (base ++ t)) := by
  unfold BlockSt.trapdoor
  refine Later.iteB rfl (fun hc => ?_) fun _ => .ok ⟨hg, rfl⟩
  simp only [Bool.and_eq_true] at hc
  have hs : (BlockSt.grow t st).start = st.start ∧ (BlockSt.grow t st).stop = st.stop := ⟨rfl, rfl⟩
  rw [hs.1, hs.2, slice_grow ht (hg.stop hc.1)]
  refine Later.same.bind0 ?_
  rintro s _ rfl
  exact .ok ⟨⟨rfl, ⟨rfl, hg.cur.valid, hg.cur.read⟩, hg.ne, hg.len, by simp, by simp⟩, rfl⟩

omit hx hx' ht in
/-- The loop, with the end of a line as one operation. -/
theorem blockLoop_succ (opts : SFlags) (base : Str) (read : Nat) (fold : Bool) (indent fuel : Nat) (st : BlockSt) :
    blockLoop opts base read fold indent (fuel + 1) st =
      if (decide (st.cur.stats.column = indent) && !st.cur.buf.isEmpty) = true then
        st.trapdoor base >>= fun st =>
          cache opts 1 st.cur.buf >>= fun _ =>
          toBreak opts (base.length + 1) st.cur >>= fun c =>
          (eatBreak opts c 0 >>= fun r => scanIndent opts indent r.1 r.2) >>= fun r =>
          blockLoop opts base read fold indent fuel
            { cur := r.1
              scratch := if st.canBorrow then st.scratch ++ blockJoin fold st.lines
                else st.scratch ++ blockJoin fold st.lines ++ st.cur.buf.take (st.cur.buf.length - c.buf.length)
              canBorrow := st.canBorrow
              start := if st.canBorrow then (if st.start = 0 then st.cur.stats.read - read else st.start) else 0
              stop := if st.canBorrow then c.stats.read - read
                else (if st.canBorrow then st.scratch ++ blockJoin fold st.lines
                  else st.scratch ++ blockJoin fold st.lines ++
                    st.cur.buf.take (st.cur.buf.length - c.buf.length)).length
              lines := r.2 }
      else .ok st := by
  rw [blockLoop]
  simp only [bind_assoc]

theorem blockLoop_later {base : Str} {n read : Nat} {fold : Bool} {indent fuel fuel' : Nat} (hi : 1 ≤ indent)
    (hb : n = read + base.length) (hf : fuel ≤ fuel') {st : BlockSt}
    (hg : BlockGrown t base n st (BlockSt.grow t st)) :
    Later No (BlockGrown t base n) (blockLoop o base read fold indent fuel st)
      (blockLoop o' (base ++ t) read fold indent fuel' (BlockSt.grow t st)) := by
  induction fuel generalizing fuel' st with
  | zero => trivial
  | succ fuel ih =>
    obtain ⟨fuel', rfl⟩ : ∃ k, fuel' = k + 1 := ⟨fuel' - 1, by omega⟩
    have hf' : fuel ≤ fuel' := by omega
    rw [blockLoop_succ, blockLoop_succ]
    have hgc : (BlockSt.grow t st).cur = ⟨st.cur.buf ++ t, st.cur.stats⟩ := rfl
    refine Later.iteB (by simp only [hgc]; rw [isEmpty_grow hg.ne]) (fun _ => ?_) fun _ => .ok hg
    refine (trapdoor_later ht hg).bind0 ?_
    rintro st1 _ ⟨⟨rfl, h1, h2, h2', h3, h4⟩, -⟩
    have hrd := h1.read
    refine cache_later hx hx' fun hh => ?_
    refine (toBreak_later hx hx' ht (n := n) (by simp) h1).bind ?_ ?_
    · intro c ha
      unfold eatBreak
      rw [ha, cache_nil hx]
      exact .inl rfl
    · rintro c _ ⟨⟨rfl, h5, h6⟩, h7, h8, h9⟩
      refine (lineEnd_later hx hx' ht hi ⟨rfl, h5, h6⟩ h9).bind0 ?_
      rintro ⟨c1, k⟩ _ ⟨rfl, ⟨-, h10, h11⟩, h12, h13⟩
      simp only at h10 h11 h12 h13 ⊢
      have hl : (BlockSt.grow t st1).cur.buf.length - (c.buf ++ t).length = st1.cur.buf.length - c.buf.length := by
        simp only [BlockSt.grow, List.length_append]; omega
      have htk : (BlockSt.grow t st1).cur.buf.take (st1.cur.buf.length - c.buf.length) =
          st1.cur.buf.take (st1.cur.buf.length - c.buf.length) := take_grow (by omega)
      rw [hl, htk]
      have hlen : 0 < c1.buf.length := List.length_pos_iff.2 h13
      refine ih hf' ⟨rfl, ⟨rfl, h10, h11⟩, h13, by simp only; omega, ?_, ?_⟩
      · intro hc
        simp only at hc ⊢
        rw [if_pos hc]
        omega
      · intro hc _
        simp only at hc ⊢
        rw [if_pos hc]
        omega

/-! ## The result -/

omit hx hx' in
theorem chompBorrow_later {base : Str} (hv : validUtf8 base = true) {style : ChompStyle} {start stop lines : Nat}
    (h1 : stop ≤ base.length) (h2 : 0 < lines → stop + 1 < base.length) (h3 : style = .Keep → lines ≤ 1) :
    Later No (fun a b => a = b) (chompBorrow base style start stop lines)
      (chompBorrow (base ++ t) style start stop lines) := by
  unfold chompBorrow
  cases style with
  | Clip =>
    simp only
    refine Later.ite Iff.rfl (fun hl => ?_) fun _ => by rw [slice_grow ht h1]; exact .same
    have hlt := h2 hl
    have hs : (slice (base ++ t) stop (base ++ t).length : Out ScanError Str) =
        slice base stop base.length >>= fun r => .ok (r ++ t) := by
      have hb : ∀ x : Str, isBoundary x x.length = true := fun x => by simp [isBoundary]
      unfold slice
      rw [hb, hb, boundary_grow ht h1]
      simp only [Bool.and_true]
      have hle : stop ≤ (base ++ t).length := by simp; omega
      by_cases hbd : isBoundary base stop = true
      · simp only [hbd, h1, hle, decide_true, Bool.and_self, ↓reduceIte, Out.ok_bind]
        rw [drop_grow h1, List.take_of_length_le (by simp; omega), List.take_of_length_le (by simp)]
      · simp [hbd]
    rw [hs, bind_assoc]
    have hsl : Sat True (slice base stop base.length : Out ScanError Str) (fun r => r = base.drop stop) := by
      unfold slice
      split
      · rw [List.take_of_length_le (by simp)]; rfl
      · trivial
    refine (Later.same.and' hsl).bind0 ?_
    rintro r _ ⟨rfl, rfl⟩
    rw [Out.ok_bind]
    have hd : (base.drop stop ++ t).drop 1 = (base.drop stop).drop 1 ++ t := drop_grow (by simp; omega)
    have hne : (base.drop stop).drop 1 ≠ [] := by
      rw [List.drop_drop]
      intro h
      rw [List.drop_eq_nil_iff] at h
      omega
    have hw : stop + widthOf ((base.drop stop).drop 1) ≤ base.length := by
      rw [List.drop_drop]
      have := width_fits hv (k := stop + 1) (by omega)
      omega
    rw [hd, widthOf_grow hne, slice_grow ht hw]
    exact .same
  | Strip => simp only; rw [slice_grow ht h1]; exact .same
  | Keep =>
    have := h3 rfl
    simp only
    have hk : stop + lines ≤ base.length := by
      rcases Nat.eq_zero_or_pos lines with rfl | h
      · exact h1
      · have := h2 h; omega
    rw [slice_grow ht hk]
    exact .same

omit hx hx' in
theorem scanChomp_later {base : Str} (hv : validUtf8 base = true) {style : ChompStyle} {n : Nat} {st : BlockSt}
    (hg : BlockGrown t base n st (BlockSt.grow t st)) :
    Later No (fun a b => a = b) (scanChomp base style st) (scanChomp (base ++ t) style (BlockSt.grow t st)) := by
  unfold scanChomp
  refine Later.iteB rfl (fun hc => ?_) fun _ => .same
  refine Later.iteB rfl (fun hk => ?_) fun hk => ?_
  · have hs : (BlockSt.grow t st).start = st.start ∧ (BlockSt.grow t st).stop = st.stop := ⟨rfl, rfl⟩
    rw [hs.1, hs.2, slice_grow ht (hg.stop hc)]
    exact .same
  · refine chompBorrow_later ht hv (hg.stop hc) (hg.lines hc) fun h => ?_
    subst h
    simpa using hk

omit hx hx' ht in
/-- A block scalar with an explicit indentation never gets past its header. -/
theorem explicit_panics (opts : SFlags) {base : Str} {read baseIndent k fuel : Nat} {fold : Bool} {chomp : ChompStyle}
    {c1 : Cur} (hk : 1 ≤ k) (hr : read < c1.stats.read) :
    (c1.line >>= fun c1 => blockIndent opts (some k) baseIndent c1 >>= fun d =>
      blockLoop opts base read fold d.indent (fuel + 1)
        { cur := d.cur
          scratch := if d.canBorrow then [] else List.replicate d.lines 0x0A
          canBorrow := d.canBorrow
          start := if d.canBorrow then d.cur.stats.read - read else 0 } >>= fun st =>
      scanChomp base chomp st >>= fun s =>
      (.ok (.Scalar s (blockStyle fold), st.cur) : Out ScanError (Token × Cur))) = .panic := by
  unfold Cur.line
  split
  · rw [Out.ok_bind]
    unfold blockIndent
    simp only [Out.ok_bind, ↓reduceIte]
    rw [blockLoop_succ, if_neg (by simp [MStats.update]; omega), Out.ok_bind]
    unfold scanChomp
    simp only [↓reduceIte]
    have h0 : ∀ j, (slice base (c1.stats.read + j - read) 0 : Out ScanError Str) = .panic := by
      intro j
      unfold slice
      rw [if_neg (by simp; omega)]
    unfold chompBorrow
    cases chomp <;> simp [MStats.update, h0] <;> rfl
  · rfl

theorem scanBlockEager_later {baseIndent : Nat} {fold : Bool} {c : Cur} (hv : validUtf8 c.buf = true) :
    Later No (Read t) (scanBlockEager o baseIndent fold c) (scanBlockEager o' baseIndent fold ⟨c.buf ++ t, c.stats⟩) := by
  rw [scanBlockEager_eq, scanBlockEager_eq]
  rw [blockHeader_eq, blockHeader_eq]
  simp only [bind_assoc]
  refine (headTo_later hx hx' ht (n := c.stats.read + c.buf.length) ⟨rfl, hv, rfl⟩).bind0 ?_
  rintro ⟨chomp, explicit, c1⟩ _ ⟨rfl, ⟨-, h1, h2⟩, h3, h4, h5⟩
  simp only [Out.ok_bind] at h1 h2 h3 h4 h5 ⊢
  cases explicit with
  | some k =>
    rw [explicit_panics o (h3 k rfl) h4, explicit_panics o' (c1 := ⟨c1.buf ++ t, c1.stats⟩) (h3 k rfl) h4]
    exact .panic
  | none =>
    simp only [blockIndent]
    refine (lineAt ht ⟨rfl, h1, h2⟩ h5).bind ?_ ?_
    · intro a ha
      rw [detectIndent_stuck hx ha.1]
      exact .inl rfl
    · rintro c2 _ ⟨⟨rfl, h6, h7⟩, hc2⟩
      have hl2 : c1.stats.read ≤ c2.stats.read := by rw [hc2]; simp [MStats.update]
      refine (detectIndent_later hx hx' ht ⟨rfl, h6, h7⟩).bind0 ?_
      rintro d _ ⟨rfl, h8, h9, h10, h11⟩
      refine (blockLoop_later hx hx' ht h11 rfl (by simp) (st :=
        { cur := d.cur
          scratch := if d.canBorrow then [] else List.replicate d.lines 0x0A
          canBorrow := d.canBorrow
          start := if d.canBorrow then d.cur.stats.read - c.stats.read else 0 })
        ⟨rfl, ⟨rfl, h8.valid, h8.read⟩, h10, by have := h8.read; simp only at *; omega, by simp, by simp⟩).bind0 ?_
      rintro st _ ⟨rfl, h12⟩
      refine (scanChomp_later ht hv ⟨rfl, h12, ‹_›, ‹_›, ‹_›, ‹_›⟩).bind0 ?_
      rintro s _ rfl
      exact .ok ⟨rfl, h12.valid⟩

end Yary.Chunk
