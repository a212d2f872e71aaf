import Verif.Proof.Lazy.Plain
import Verif.Proof.Scan.PlainText

/-! # A plain scalar scanned now or evaluated later -/

namespace Yary.Deferred

open Chunk Spec

variable {o o' o2 : SFlags} {t : Str} (hx : o.extendable = false) (hx' : o'.extendable = false) (hx2 : o2.extendable = false)

/-- Every line break is a line feed or a carriage return. -/
def Narrow (s : Str) : Prop := ∀ r, Suf s r → isBreak r = true → startsWith r 0x0A = true ∨ startsWith r 0x0D = true

theorem Narrow.suf {a b : Str} (h : Narrow a) (hs : Suf a b) : Narrow b := fun r hr => h r (hs.trans hr)

/-- The text of the scalar ends after the indicator that ends it. -/
theorem end_split {s : Str} {block : Bool} (hv : validUtf8 s = true) (hN : Narrow s) (he : plainEnd block s = true) :
    plainSkip s ≤ s.length ∧ 0 < plainSkip s ∧ HeadOk (s.drop (plainSkip s)) ∧ Closed (s.take (plainSkip s)) (s.drop (plainSkip s)) ∧
      isWhiteSpaceZ (s.take (plainSkip s)) = false ∧ plainEnd block (s.take (plainSkip s)) = true := by
  have hb : ∃ b r, s = b :: r ∧ ((b = b! ':' ∧ isWhiteSpaceZ r = true) ∨ (block = false ∧ b ∈ bytes! ",[]{}")) := by
    unfold plainEnd at he
    rw [Bool.or_eq_true, Bool.and_eq_true, Bool.and_eq_true] at he
    rcases he with ⟨h1, h2⟩ | ⟨h1, h2⟩
    · obtain ⟨r, rfl⟩ := startsWith_iff.1 h1
      exact ⟨_, r, rfl, .inl ⟨rfl, h2⟩⟩
    · obtain ⟨b, r, rfl, hb⟩ := flowIndicator_iff.1 h2
      exact ⟨b, r, rfl, .inr ⟨by simpa using h1, hb⟩⟩
  obtain ⟨b, r, rfl, hb⟩ := hb
  have hb128 : b < 128 := by
    rcases hb with ⟨rfl, -⟩ | ⟨-, hb⟩
    · decide
    · simp at hb; rcases hb with rfl | rfl | rfl | rfl | rfl <;> decide
  have hbw : isWhiteSpaceZ (b :: r) = false ∧ ∀ u, isWhiteSpaceZ (b :: u) = false := by
    have : ∀ u, isWhiteSpaceZ (b :: u) = false := by
      intro u
      rcases hb with ⟨rfl, -⟩ | ⟨-, hb⟩
      · simp [isWhiteSpaceZ, isBlank, isBreak, startsWith_cons]
      · simp at hb
        rcases hb with rfl | rfl | rfl | rfl | rfl <;> simp [isWhiteSpaceZ, isBlank, isBreak, startsWith_cons]
    exact ⟨this r, this⟩
  have hvr := valid_tail hv hb128
  have hend : ∀ u, (isWhiteSpaceZ u = true) → plainEnd block (b :: u) = true := by
    intro u hu
    unfold plainEnd
    rcases hb with ⟨rfl, -⟩ | ⟨rfl, hb⟩
    · simp [hu, startsWith_cons]
    · have : flowIndicator (b :: u) = true := flowIndicator_iff.2 ⟨b, u, rfl, hb⟩
      simp [this]
  unfold plainSkip
  simp only [List.drop_succ_cons, List.drop_zero]
  by_cases hw : isWhiteSpace r = true
  · rw [if_pos hw]
    obtain ⟨y, u, rfl, hy⟩ : ∃ y u, r = y :: u ∧ (y = 0x20 ∨ y = 0x09 ∨ y = 0x0A ∨ y = 0x0D) := by
      unfold isWhiteSpace at hw
      rw [Bool.or_eq_true] at hw
      rcases hw with hw | hw
      · obtain ⟨y, u, rfl, hy⟩ := isBlank_iff.1 hw
        exact ⟨y, u, rfl, by rcases hy with h | h <;> simp [h]⟩
      · rcases hN r ⟨[b], rfl⟩ hw with h | h
        · obtain ⟨u, rfl⟩ := startsWith_iff.1 h
          exact ⟨_, u, rfl, by simp⟩
        · obtain ⟨u, rfl⟩ := startsWith_iff.1 h
          exact ⟨_, u, rfl, by simp⟩
    have hy128 : y < 128 := by rcases hy with rfl | rfl | rfl | rfl <;> decide
    refine ⟨by simp, by decide, headOk_of_valid (valid_tail hvr hy128), .inr ⟨[b], y, rfl, ?_⟩, hbw.2 _, ?_⟩
    · rcases hy with rfl | rfl | rfl | rfl <;> decide
    · refine hend [y] ?_
      rcases hy with rfl | rfl | rfl | rfl <;> rfl
  · rw [if_neg hw]
    refine ⟨by simp, by decide, headOk_of_valid hvr, ?_, hbw.2 _, hend [] rfl⟩
    rcases hb with ⟨rfl, h⟩ | ⟨-, hb⟩
    · left
      simp only [List.drop_succ_cons, List.drop_zero]
      unfold isWhiteSpaceZ at h
      unfold isWhiteSpace at hw
      simp only [Bool.or_eq_true] at h hw
      rcases h with h | h
      · exact absurd h hw
      · exact List.isEmpty_iff.1 h
    · right
      refine ⟨[], b, rfl, ?_⟩
      simp at hb
      rcases hb with rfl | rfl | rfl | rfl | rfl <;> decide

theorem grow_split {t : Str} {st : PlainSt} {s : Str} (h : st.cur.buf = s ++ t) :
    st = PlainSt.grow t { st with cur := ⟨s, st.cur.stats⟩ } := by
  obtain ⟨⟨b, m⟩, ss, scr, cb, od, ws, lines⟩ := st
  simp only at h
  subst h
  rfl

/-- What stops the loop. -/
def plainStop (block : Bool) (c : Cur) (outdent : Bool) : Bool :=
  c.buf.isEmpty || outdent || (isDocumentIndicator c.buf c.stats.column || startsWith c.buf b! '#') || plainEnd block c.buf

include hx in
theorem plainLoop_stops {base : Str} {indent : Nat} {block : Bool} {fuel : Nat} {st : PlainSt} (h : plainStop block st.cur st.outdent = true) :
    plainLoop o base indent block (fuel + 1) st = .ok st := by
  rw [plainLoop, cache_whole o hx, Out.ok_bind]
  unfold plainStop at h
  simp only [Bool.or_eq_true] at h ⊢
  by_cases h1 : st.cur.buf.isEmpty = true
  · rw [if_pos h1]
  rw [if_neg h1]
  by_cases h2 : st.outdent = true
  · rw [if_pos h2]
  rw [if_neg h2]
  by_cases h3 : isDocumentIndicator st.cur.buf st.cur.stats.column = true ∨ startsWith st.cur.buf b! '#' = true
  · rw [if_pos h3]
  rw [if_neg h3]
  by_cases h4 : plainEnd block st.cur.buf = true
  · rw [if_pos h4]
  · exfalso
    rcases h with ((h | h) | h) | h
    · exact h1 h
    · exact h2 h
    · exact h3 h
    · exact h4 h

include hx in
theorem plainLoop_goes {base : Str} {indent : Nat} {block : Bool} {fuel : Nat} {st : PlainSt} (h : plainStop block st.cur st.outdent = false) :
    plainLoop o base indent block (fuel + 1) st = (do
      let st ← plainWord o block (base.length + 1) { st with whitespace := 0, lines := 0 }
      let st ← plainSpace o base (base.length + 1) { st with scalarStats := st.cur.stats }
      let st ← plainJoin { st with outdent := block && st.cur.stats.column < indent }
      plainLoop o base indent block fuel st) := by
  rw [plainLoop, cache_whole o hx, Out.ok_bind]
  unfold plainStop at h
  simp only [Bool.or_eq_false_iff] at h
  obtain ⟨⟨⟨h1, h2⟩, h3, h4⟩, h5⟩ := h
  rw [if_neg (by rw [h1]; simp), if_neg (by rw [h2]; simp), if_neg (by rw [h3, h4]; simp), if_neg (by rw [h5]; simp)]

include hx in
theorem plainLazyLoop_stops {base : Str} {indent : Nat} {block : Bool} {fuel : Nat} {st : PlainLazySt} (h : plainStop block st.cur st.outdent = true) :
    plainLazyLoop o base indent block (fuel + 1) st = .ok st := by
  rw [plainLazyLoop, cache_whole o hx, Out.ok_bind]
  unfold plainStop at h
  simp only [Bool.or_eq_true] at h ⊢
  by_cases h1 : st.cur.buf.isEmpty = true
  · rw [if_pos h1]
  rw [if_neg h1]
  by_cases h2 : st.outdent = true
  · rw [if_pos h2]
  rw [if_neg h2]
  by_cases h3 : isDocumentIndicator st.cur.buf st.cur.stats.column = true ∨ startsWith st.cur.buf b! '#' = true
  · rw [if_pos h3]
  rw [if_neg h3]
  by_cases h4 : plainEnd block st.cur.buf = true
  · rw [if_pos h4]
  · exfalso
    rcases h with ((h | h) | h) | h
    · exact h1 h
    · exact h2 h
    · exact h3 h
    · exact h4 h

include hx in
theorem plainLazyLoop_goes {base : Str} {indent : Nat} {block : Bool} {fuel : Nat} {st : PlainLazySt} (h : plainStop block st.cur st.outdent = false) :
    plainLazyLoop o base indent block (fuel + 1) st = (do
      let (done, st) ← plainLazyWord o block (base.length + 1) st
      if done then .ok st
      else do
        let st ← plainLazySpace o (base.length + 1) { st with scalarStats := st.cur.stats }
        plainLazyLoop o base indent block fuel
          { st with outdent := block && st.cur.stats.column < indent }) := by
  rw [plainLazyLoop, cache_whole o hx, Out.ok_bind]
  unfold plainStop at h
  simp only [Bool.or_eq_false_iff] at h
  obtain ⟨⟨⟨h1, h2⟩, h3, h4⟩, h5⟩ := h
  rw [if_neg (by rw [h1]; simp), if_neg (by rw [h2]; simp), if_neg (by rw [h3, h4]; simp), if_neg (by rw [h5]; simp)]

/-- The conditions that stop the loop can be seen in the text of the scalar. -/
theorem plainStop_closed {block outdent : Bool} {s : Str} {m : MStats} (hv : validUtf8 s = true) (h : Closed s t) (hne : s ≠ [] ∨ t = []) :
    plainStop block ⟨s ++ t, m⟩ outdent = plainStop block ⟨s, m⟩ outdent := by
  rcases hne with hne | rfl
  · unfold plainStop
    rw [isEmpty_grow hne, indicator_closed hv h, startsWith_grow hne, plainEnd_closed hv h]
  · rw [List.append_nil]

include hx hx' hx2 in
theorem plainLoop_split {base : Str} {indent : Nat} {block : Bool} {fuel : Nat} {st x : PlainSt} (hv : validUtf8 st.cur.buf = true)
    (hN : Narrow st.cur.buf) (hb : st.cur.buf.length ≤ base.length) (hsc : st.scalarStats.read ≤ st.cur.stats.read)
    (h : plainLoop o base indent block fuel st = .ok x) :
    ∃ s t, st.cur.buf = s ++ t ∧ HeadOk t ∧ (s = [] ∨ Closed s t) ∧ x.scalarStats.read ≤ st.cur.stats.read + s.length ∧
      (∀ base' fuel', base = base' ++ t → s.length < fuel' →
        ∃ x', x = PlainSt.grow t x' ∧ plainLoop o' base' indent block fuel' { st with cur := ⟨s, st.cur.stats⟩ } = .ok x') ∧
      (∀ fuel', st.cur.buf.length < fuel' →
        ∃ y, plainLazyLoop o2 base indent block fuel' ⟨st.cur, st.scalarStats, st.outdent⟩ = .ok y ∧ y.scalarStats = x.scalarStats ∧
          y.cur.stats.read = st.cur.stats.read + s.length) := by
  induction fuel generalizing st with
  | zero => cases h
  | succ fuel ih =>
    cases hstop : plainStop block st.cur st.outdent with
    | true =>
      rw [plainLoop_stops hx hstop] at h
      injection h with h; subst h
      refine ⟨[], st.cur.buf, rfl, headOk_of_valid hv, .inl rfl, by simp; omega, ?_, ?_⟩
      · intro base' fuel' hbase hf
        obtain ⟨fuel', rfl⟩ : ∃ k, fuel' = k + 1 := ⟨fuel' - 1, by omega⟩
        exact ⟨_, grow_split (s := []) rfl, plainLoop_stops hx' rfl⟩
      · intro fuel' hf
        obtain ⟨fuel', rfl⟩ : ∃ k, fuel' = k + 1 := ⟨fuel' - 1, by omega⟩
        exact ⟨_, plainLazyLoop_stops hx2 hstop, rfl, rfl⟩
    | false =>
      rw [plainLoop_goes hx hstop] at h
      obtain ⟨st1, h1, h⟩ := Out.bind_eq_ok.1 h
      obtain ⟨st2, h2, h⟩ := Out.bind_eq_ok.1 h
      obtain ⟨st3, h3, h⟩ := Out.bind_eq_ok.1 h
      obtain ⟨m1, f1, f2, f3, lt1, hw⟩ := plainWord_lazy hx2 hx h1
      obtain ⟨m2, g1, g2, hsp, lt2, keep, hl2⟩ := plainSpace_lazy hx2 hx h2
      obtain ⟨j1, j2, j3, j4⟩ := plainJoin_ok h3
      simp only at m1 f1 f2 f3 lt1 hw m2 g1 g2 hsp lt2 keep hl2 j1 j2 j3 j4
      have v1 := m1.valid hv
      have v2 := m2.valid v1
      have hs1 := m1.suf.length
      have hstop' := hstop
      unfold plainStop at hstop'
      simp only [Bool.or_eq_false_iff] at hstop'
      obtain ⟨⟨⟨hem, hod⟩, -, -⟩, hnend⟩ := hstop'
      have hne : st.cur.buf ≠ [] := by
        intro h0; rw [h0] at hem; cases hem
      rcases hw with ⟨hz, hlw⟩ | ⟨hz, he, hlw⟩
      · -- the word was followed by whitespace
        have hlt : st2.cur.buf.length < st.cur.buf.length := by
          have := m2.suf.length
          cases hwz : isWhiteSpaceZ st.cur.buf with
          | false => have := lt1 hwz hnend; omega
          | true =>
            by_cases h0 : st1.cur.buf = []
            · have := m2.suf.length
              rw [h0] at this
              have h9 := List.length_pos_iff.2 hne
              simp only [List.length_nil] at this
              omega
            · have : isWhiteSpace st1.cur.buf = true := by
                unfold isWhiteSpaceZ at hz; unfold isWhiteSpace
                rw [Bool.or_eq_true] at hz
                rcases hz with hz | hz
                · exact hz
                · exact absurd (List.isEmpty_iff.1 hz) h0
              have := lt2 this
              omega
        obtain ⟨s3, t, e3, ht, hc3, hr3, hsm, hlz⟩ := ih (st := st3) (by rw [j1]; exact v2)
          (by rw [j1]; exact hN.suf (m1.suf.trans m2.suf)) (by rw [j1]; have := m2.suf.length; omega)
          (by rw [j1, j2, g1]; have := m2.read; have := m2.suf.length; omega) h
        rw [j1] at e3 hr3
        obtain ⟨w1, hw1⟩ := m1.suf
        obtain ⟨w2, hw2, hlast⟩ := hsp
        have hrd : st.cur.stats.read + (w1 ++ w2 ++ s3).length = st2.cur.stats.read + s3.length := by
          have h2' := m2.read
          rw [hw2, e3] at h2'
          have h1' := m1.read
          rw [hw1, hw2, e3] at h1'
          simp only [List.length_append] at *
          omega
        have hbuf : st.cur.buf = (w1 ++ w2 ++ s3) ++ t := by rw [hw1, hw2, e3]; simp
        have hbuf1 : st1.cur.buf = (w2 ++ s3) ++ t := by rw [hw2, e3]; simp
        -- what is left of the text of the scalar after the word ends with white space
        have hcl1 : Closed (w2 ++ s3) t := by
          rcases hc3 with rfl | hc3
          · rcases hlast with rfl | ⟨p, b, rfl, hb'⟩
            · left
              have h0 : st2.cur.buf = st1.cur.buf := by rw [hw2]; rfl
              cases hws : isWhiteSpace st1.cur.buf with
              | true => have := lt2 hws; rw [h0] at this; omega
              | false =>
                unfold isWhiteSpaceZ at hz; unfold isWhiteSpace at hws
                rw [hws] at hz
                have := List.isEmpty_iff.1 (by simpa using hz : st1.cur.buf.isEmpty = true)
                rw [← h0, e3] at this
                exact this
            · exact .inr ⟨p, b, by simp, hb'⟩
          · exact hc3.append w2
        have hcl : Closed (w1 ++ w2 ++ s3) t := by rw [List.append_assoc]; exact hcl1.append w1
        have hvs : validUtf8 (w1 ++ w2 ++ s3) = true := valid_before (by rw [← hbuf]; exact hv) ht
        have hvs1 : validUtf8 (w2 ++ s3) = true := valid_before (by rw [← hbuf1]; exact v1) ht
        have hne' : w1 ++ w2 ++ s3 ≠ [] := by
          intro h0
          have h9 := congrArg List.length hbuf
          have h10 := congrArg List.length e3
          rw [h0] at h9
          simp only [List.length_append, List.length_nil] at h9 h10
          omega
        refine ⟨w1 ++ w2 ++ s3, t, hbuf, ht, .inr hcl, by rw [hrd]; exact hr3, ?_, ?_⟩
        · intro base' fuel' hbase hf
          obtain ⟨fuel', rfl⟩ : ∃ k, fuel' = k + 1 := ⟨fuel' - 1, by omega⟩
          subst hbase
          have hbl : (w1 ++ w2 ++ s3).length ≤ base'.length := by
            rw [hbuf] at hb; simp only [List.length_append] at hb ⊢; omega
          have hst : plainStop block ⟨w1 ++ w2 ++ s3, st.cur.stats⟩ st.outdent = false := by
            rw [← plainStop_closed hvs hcl (.inl hne'), ← hbuf]; exact hstop
          rw [plainLoop_goes hx' hst]
          have hg0 : ({ st with whitespace := 0, lines := 0 } : PlainSt) =
              PlainSt.grow t { st with cur := ⟨w1 ++ w2 ++ s3, st.cur.stats⟩, whitespace := 0, lines := 0 } :=
            grow_split hbuf
          rw [hg0] at h1
          obtain ⟨u1, e1, h1'⟩ := plainWord_back hx hx' ht (fuel' := base'.length + 1) hvs hcl
            (by simp only; omega) h1 (by
              rcases hcl1 with h0 | ⟨p, b, hp, -⟩
              · exact .inl h0
              · right; rw [hbuf1, hp]; simp; omega)
          have hu1 : u1.cur.buf = w2 ++ s3 := by
            have : st1.cur.buf = u1.cur.buf ++ t := by rw [e1]; rfl
            rw [hbuf1] at this
            exact (List.append_cancel_right this).symm
          subst e1
          have hg1 : ({ PlainSt.grow t u1 with scalarStats := (PlainSt.grow t u1).cur.stats } : PlainSt) =
              PlainSt.grow t { u1 with scalarStats := u1.cur.stats } := rfl
          rw [hg1] at h2
          obtain ⟨u2, e2, h2'⟩ := plainSpace_back hx hx' ht (fuel' := base'.length + 1) (st := { u1 with scalarStats := u1.cur.stats })
            (by simp only [hu1]; exact hvs1)
            (by simp only [hu1]; simp only [List.length_append] at hbl ⊢; omega) h2
            (by rw [e3]; simp)
          subst e2
          have hg2 : ({ PlainSt.grow t u2 with outdent := block && decide ((PlainSt.grow t u2).cur.stats.column < indent) } : PlainSt) =
              PlainSt.grow t { u2 with outdent := block && decide (u2.cur.stats.column < indent) } := rfl
          rw [hg2] at h3
          obtain ⟨u3, e4, h3'⟩ := plainJoin_grow h3
          subst e4
          have hu3 : u3.cur.buf = s3 := by
            have : (PlainSt.grow t u3).cur.buf = u3.cur.buf ++ t := rfl
            rw [j1, e3] at this
            exact (List.append_cancel_right this).symm
          obtain ⟨x', ex, hx'⟩ := hsm base' fuel' rfl (by
            have h5 := hlt
            rw [hbuf, e3] at h5
            simp only [List.length_append] at h5 hf
            omega)
          refine ⟨x', ex, ?_⟩
          have h6 : ({ PlainSt.grow t u3 with cur := ⟨s3, (PlainSt.grow t u3).cur.stats⟩ } : PlainSt) = u3 := by
            obtain ⟨⟨b, m⟩, ss, scr, cb, od, ws, lines⟩ := u3
            simp only at hu3; subst hu3; rfl
          rw [h6] at hx'
          rw [h1', Out.ok_bind, h2', Out.ok_bind, h3', Out.ok_bind, hx']
        · intro fuel' hf
          obtain ⟨fuel', rfl⟩ : ∃ k, fuel' = k + 1 := ⟨fuel' - 1, by omega⟩
          rw [plainLazyLoop_goes hx2 hstop, hlw (base.length + 1) _ (by omega) rfl, Out.ok_bind]
          simp only [Bool.false_eq_true, if_false]
          rw [hl2 (base.length + 1) _ (by omega) rfl, Out.ok_bind]
          obtain ⟨y, hy, hy1, hy2⟩ := hlz fuel' (by rw [j1]; omega)
          refine ⟨y, ?_, hy1, ?_⟩
          · rw [j1, j2, j3, g1] at hy
            exact hy
          · rw [hy2, j1, hrd]
      · -- the word was followed by an indicator
        have hws : isWhiteSpace st1.cur.buf = false := by
          unfold isWhiteSpaceZ at hz; unfold isWhiteSpace
          rw [Bool.or_eq_false_iff] at hz; exact hz.1
        have e2 := keep hws
        subst e2
        have e3 := j4 (by rw [f3])
        subst e3
        simp only at h
        cases fuel with
        | zero => cases h
        | succ fuel =>
          rw [plainLoop_stops hx (by unfold plainStop; simp only [he, Bool.or_true])] at h
          injection h with h; subst h
          obtain ⟨k1, k2, ht, hck, hzk, hek⟩ := end_split v1 (hN.suf m1.suf) he
          generalize hn : plainSkip st1.cur.buf = n at *
          obtain ⟨w1, hw1⟩ := m1.suf
          have hbuf : st.cur.buf = (w1 ++ st1.cur.buf.take n) ++ st1.cur.buf.drop n := by
            rw [List.append_assoc, List.take_append_drop]; exact hw1
          have hbuf1 : st1.cur.buf = st1.cur.buf.take n ++ st1.cur.buf.drop n := (List.take_append_drop _ _).symm
          have hcl := hck.append w1
          have hvs : validUtf8 (w1 ++ st1.cur.buf.take n) = true := valid_before (by rw [← hbuf]; exact hv) ht
          have htl : (st1.cur.buf.take n).length = n := by rw [List.length_take]; omega
          have hne' : w1 ++ st1.cur.buf.take n ≠ [] := by
            intro h0
            have := congrArg List.length h0
            simp only [List.length_append, htl, List.length_nil] at this
            omega
          have hrd : st.cur.stats.read + (w1 ++ st1.cur.buf.take n).length = st1.cur.stats.read + n := by
            have := m1.read
            rw [hw1] at this
            simp only [List.length_append, htl] at this ⊢
            omega
          refine ⟨w1 ++ st1.cur.buf.take n, st1.cur.buf.drop n, hbuf, ht, .inr hcl, by rw [hrd]; simp, ?_, ?_⟩
          · intro base' fuel' hbase hf
            obtain ⟨fuel', rfl⟩ : ∃ k, fuel' = k + 2 := ⟨fuel' - 2, by
              have := List.length_pos_iff.2 hne'
              omega⟩
            have hbl : (w1 ++ st1.cur.buf.take n).length ≤ base'.length := by
              have := congrArg List.length hbase
              have h7 := congrArg List.length hbuf
              simp only [List.length_append] at this h7 ⊢; omega
            have hst : plainStop block ⟨w1 ++ st1.cur.buf.take n, st.cur.stats⟩ st.outdent = false := by
              rw [← plainStop_closed hvs hcl (.inl hne'), ← hbuf]; exact hstop
            rw [plainLoop_goes hx' hst]
            have hg0 : ({ st with whitespace := 0, lines := 0 } : PlainSt) =
                PlainSt.grow (st1.cur.buf.drop n) { st with cur := ⟨w1 ++ st1.cur.buf.take n, st.cur.stats⟩, whitespace := 0, lines := 0 } :=
              grow_split hbuf
            rw [hg0] at h1
            obtain ⟨u1, e1, h1'⟩ := plainWord_back hx hx' ht (fuel' := base'.length + 1) hvs hcl
              (by simp only; omega) h1 (by right; rw [List.length_drop]; omega)
            have hu1 : u1.cur.buf = st1.cur.buf.take n := by
              have : st1.cur.buf = u1.cur.buf ++ st1.cur.buf.drop n := congrArg (·.cur.buf) e1
              have h8 := hbuf1.symm.trans this
              exact (List.append_cancel_right h8).symm
            have hu1s : u1.cur.stats = st1.cur.stats := by rw [e1]; rfl
            rw [h1', Out.ok_bind]
            have hwsu : isWhiteSpace u1.cur.buf = false := by
              rw [hu1]
              unfold isWhiteSpaceZ at hzk; unfold isWhiteSpace
              rw [Bool.or_eq_false_iff] at hzk; exact hzk.1
            have hspace : plainSpace o' base' (base'.length + 1) { u1 with scalarStats := u1.cur.stats } =
                .ok { u1 with scalarStats := u1.cur.stats } := by
              rw [plainSpace, cache_whole o' hx', Out.ok_bind]
              unfold isWhiteSpace at hwsu
              rw [Bool.or_eq_false_iff] at hwsu
              rw [if_neg (by rw [hwsu.1]; simp), if_neg (by rw [hwsu.2]; simp)]
            rw [hspace, Out.ok_bind]
            have hlines : u1.lines = 0 := by
              have : st1.lines = u1.lines := congrArg (·.lines) e1
              rw [← this, f3]
            have hjoin : plainJoin { u1 with scalarStats := u1.cur.stats, outdent := block && decide (u1.cur.stats.column < indent) } =
                .ok { u1 with scalarStats := u1.cur.stats, outdent := block && decide (u1.cur.stats.column < indent) } := by
              unfold plainJoin
              simp only [hlines]
            rw [hjoin, Out.ok_bind, plainLoop_stops hx' (by unfold plainStop; simp only [hu1, hek, Bool.or_true])]
            refine ⟨_, ?_, rfl⟩
            have e1' : PlainSt.grow (st1.cur.buf.drop n) u1 = st1 := e1.symm
            rw [show (PlainSt.grow (st1.cur.buf.drop n) { u1 with scalarStats := u1.cur.stats, outdent := block && decide (u1.cur.stats.column < indent) } : PlainSt) =
              { PlainSt.grow (st1.cur.buf.drop n) u1 with scalarStats := u1.cur.stats, outdent := block && decide (u1.cur.stats.column < indent) } from rfl, e1', hu1s]
          · intro fuel' hf
            obtain ⟨fuel', rfl⟩ : ∃ k, fuel' = k + 1 := ⟨fuel' - 1, by omega⟩
            rw [plainLazyLoop_goes hx2 hstop, hlw (base.length + 1) _ (by omega) rfl, Out.ok_bind]
            simp only [if_true]
            refine ⟨_, rfl, rfl, ?_⟩
            rw [hrd]
            simp [MStats.update]

include hx hx' in
/-- A plain scalar that can be scanned can be scanned without evaluating it, and evaluated later. -/
theorem scanPlain_lazy {indent : Nat} {block : Bool} {c c2 : Cur} {tok : Token} (hv : validUtf8 c.buf = true) (hN : Narrow c.buf)
    (h : scanPlainEager o indent block c = .ok (tok, c2)) :
    ∃ l, scanPlainLazy o' indent block c = .ok (l, c2) ∧ l.intoToken = .ok tok := by
  rw [scanPlainEager_eq] at h
  rw [cache_whole o hx, Out.ok_bind] at h
  split at h
  · cases h
  rename_i hbad
  obtain ⟨x, h1, h⟩ := Out.bind_eq_ok.1 h
  obtain ⟨v, h2, h⟩ := Out.bind_eq_ok.1 h
  obtain ⟨r, h3, h⟩ := Out.bind_eq_ok.1 h
  injection h with h
  injection h with htok h
  subst h
  obtain ⟨s, t, hbuf, ht, -, hrd, hsm, hlz⟩ := plainLoop_split hx (st := { cur := c, scalarStats := c.stats }) (o' := { o' with extendable := false }) rfl hx' hv hN (Nat.le_refl _)
    (Nat.le_refl _) h1
  obtain ⟨x', rfl, hsmall⟩ := hsm s (s.length + 1) hbuf (by omega)
  obtain ⟨y, hy, hy1, hy2⟩ := hlz (c.buf.length + 1) (by simp)
  simp only at hbuf hrd hy hy2 hsmall
  have hss : (PlainSt.grow t x').scalarStats = x'.scalarStats := rfl
  rw [hss] at h2 h3 hrd hy1
  have hadv : x'.scalarStats.read - c.stats.read ≤ s.length := by omega
  have hbd : y.cur.stats.read - c.stats.read = (s ++ t).length - t.length := by
    rw [hy2]; simp
  refine ⟨.plain { o' with extendable := false } s c.stats indent block, ?_, ?_⟩
  · rw [scanPlainLazy_eq]
    rw [hy, Out.ok_bind]
    simp only [hy1]
    rw [hbd, hbuf, slice_front ht, Out.ok_bind, ← hbuf, h3, Out.ok_bind]
  · unfold Lazy.intoToken
    simp only
    rw [scanPlainEager_eq]
    simp only
    have hbad' : ¬ plainBadStart block s = true := by
      intro hb
      apply hbad
      rw [hbuf]
      unfold plainBadStart at hb ⊢
      rw [Bool.and_eq_true] at hb
      have hne : s.drop 1 ≠ [] := by
        intro h0
        rw [h0] at hb
        exact absurd hb.2 (by decide)
      have hne0 : s ≠ [] := by rintro rfl; exact hne rfl
      have h1le : 1 ≤ s.length := List.length_pos_iff.2 hne0
      rw [drop_grow h1le, flowIndicator_grow hne, startsWith_grow hne0, startsWith_grow hne0, startsWith_grow hne0, hb.1, hb.2]
      rfl
    rw [hbuf, plainSlice_grow ht hadv] at h2
    have hskip : (Cur.skip ⟨s, x'.scalarStats⟩ (x'.scalarStats.read - c.stats.read)) =
        .ok ⟨s.drop (x'.scalarStats.read - c.stats.read), x'.scalarStats⟩ := by
      unfold Cur.skip at h3 ⊢
      simp only at h3 ⊢
      rw [hbuf, boundary_grow ht hadv] at h3
      split at h3
      · rename_i hb; rw [if_pos hb]
      · cases h3
    rw [cache_whole _ rfl, Out.ok_bind, if_neg hbad', hsmall, Out.ok_bind]
    rw [h2, Out.ok_bind, hskip, Out.ok_bind, Out.ok_bind, htok]

end Yary.Deferred
