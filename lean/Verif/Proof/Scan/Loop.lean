import Verif.Proof.Scan.Step

/-! # The loop of the scanner -/

namespace Yary

open Closed (Safe Progress Finished)

variable {P : Prop} {I J : SS → Prop} {opts : SFlags}

theorem Closed.and (hI : Closed I) (hJ : Closed J) : Closed (fun s => I s ∧ J s) where
  valid h := hI.valid h.1
  flags b h := ⟨hI.flags b h.1, hJ.flags b h.2⟩
  first h h1 := ⟨hI.first h.1 h1, hJ.first h.2 h1⟩
  noKey h := ⟨hI.noKey h.1, hJ.noKey h.2⟩
  stale h h1 := ⟨hI.stale h.1 h1, hJ.stale h.2 h1⟩
  save r h := ⟨hI.save r h.1, hJ.save r h.2⟩
  move h h1 := ⟨hI.move h.1 h1, hJ.move h.2 h1⟩
  node h h1 h2 h3 h4 := ⟨hI.node h.1 h1 h2 h3 h4, hJ.node h.2 h1 h2 h3 h4⟩
  plain h h1 h2 := ⟨hI.plain h.1 h1 h2, hJ.plain h.2 h1 h2⟩
  boundary h h1 h2 h3 h4 := ⟨hI.boundary h.1 h1 h2 h3 fun hd => (h4 hd).imp fun _ h => ⟨h.1.1, h.2⟩,
    hJ.boundary h.2 h1 h2 h3 fun hd => (h4 hd).imp fun _ h => ⟨h.1.2, h.2⟩⟩
  pop i h h1 := ⟨hI.pop i h.1 h1, hJ.pop i h.2 h1⟩
  roll e i map h h1 := ⟨hI.roll e i map h.1 h1, hJ.roll e i map h.2 h1⟩
  touch e' h h1 := ⟨hI.touch e' h.1 h1, hJ.touch e' h.2 h1⟩
  rollKey e i h h1 h2 h3 h4 h5 := ⟨hI.rollKey e i h.1 h1 h2 h3 h4 h5, hJ.rollKey e i h.2 h1 h2 h3 h4 h5⟩
  useKey h h1 h2 h3 h4 := ⟨hI.useKey h.1 h1 h2 h3 h4, hJ.useKey h.2 h1 h2 h3 h4⟩
  flowStart map h := ⟨hI.flowStart map h.1, hJ.flowStart map h.2⟩
  flowEnd map h h1 h2 := ⟨hI.flowEnd map h.1 h1 h2, hJ.flowEnd map h.2 h1 h2⟩

/-- The buffer is a text and the end of `base`, the offset is `n` and the stream has not ended. -/
def Rest (base : Str) (n : Nat) (s : SS) : Prop :=
  validUtf8 s.buf = true ∧ (∃ p, base = p ++ s.buf) ∧ s.sc.offset = n ∧ s.sc.state ≠ .Done

theorem closed_rest (base : Str) (n : Nat) : Closed (Rest base n) where
  valid h := h.1
  flags _ h := h
  first h _ := ⟨h.1, h.2.1, h.2.2.1, fun h => (by cases h)⟩
  noKey h := h
  stale h _ := h
  save _ h := h
  move h h1 := by
    obtain ⟨-, ⟨p, hp⟩, ho⟩ := h
    obtain ⟨q, hq⟩ := h1.moves.suffix
    exact ⟨h1.valid, ⟨p ++ q, by rw [hp]; simp only at hq; rw [hq]; simp [SS.move]⟩, ho⟩
  node h h1 _ _ _ := by
    obtain ⟨-, ⟨p, hp⟩, ho⟩ := h
    obtain ⟨q, hq⟩ := h1.moves.suffix
    exact ⟨h1.valid, ⟨p ++ q, by rw [hp]; simp only at hq; rw [hq]; simp [SS.move, SS.put]⟩, ho⟩
  plain h _ _ := h
  boundary h _ _ _ _ := h
  pop _ h _ := h
  roll _ _ _ h _ := h
  touch _ h _ := h
  rollKey _ _ h _ _ _ _ _ := h
  useKey h _ _ _ _ := h
  flowStart _ h := h
  flowEnd _ h _ _ := h

theorem boundary_of_drop {base buf : Str} (hv : validUtf8 buf = true) (h : ∃ p, base = p ++ buf) :
    isBoundary base (base.length - buf.length) = true := by
  obtain ⟨p, hp⟩ := h
  have hn : base.length - buf.length = p.length := by rw [hp]; simp
  rw [hn, hp]
  unfold isBoundary
  cases buf with
  | nil => simp
  | cons b t =>
    have := validUtf8_head hv
    simp [this]

/-- A property of the state that does not look at the offset. -/
def NoOffset (I : SS → Prop) : Prop :=
  ∀ {s} n, I s → I { s with sc := { s.sc with offset := n } }

/-- How much is left to do. -/
def Scanner.left (base : Str) (sc : Scanner) : Nat :=
  (base.drop sc.offset).length + (if sc.state = .Start then 2 else if sc.state = .Done then 0 else 1)

/-- How a run of the loop from before the end of the stream ends. -/
def Ends (P : Prop) (I : SS → Prop) (base : Str) (sc0 : Scanner) (out0 : List TokenEntry) :
    Out ScanError Unit × Scanner × List TokenEntry → Prop
  | (.ok _, sc, out) => isBoundary base sc.offset = true ∧
      (I ⟨sc, base.drop sc.offset, out⟩ ∧ sc.state ≠ .Done ∧ out ≠ [] ∧ sc.keyPossible = false ∧
        (sc.left base < sc0.left base ∨ (sc = sc0 ∧ out = out0)) ∨
      Finished I ⟨sc, base.drop sc.offset, out⟩)
  | (.err e, sc, out) => (∃ buf, I ⟨sc, buf, out⟩ ∧ (e = .Extend → buf = base.drop sc.offset)) ∧
      isBoundary base sc.offset = true ∧ sc.state ≠ .Done
  | (.panic, _, _) => P
  | (.diverge, _, _) => False

theorem scanLoop_done {base : Str} {sc : Scanner} (h : sc.state = .Done) (fuel : Nat)
    (out : List TokenEntry) : scanLoop opts base (fuel + 1) sc out = (.ok (), sc, out) := by
  rw [scanLoop, if_neg (by simp [h])]

theorem scanLoop_ends (hC : Closed I) (hO : NoOffset I) {base : Str}
    (hP : P ∨ Safe opts base) :
    ∀ fuel (sc : Scanner) (out : List TokenEntry), isBoundary base sc.offset = true →
    validUtf8 (base.drop sc.offset) = true →
    I ⟨sc, base.drop sc.offset, out⟩ → sc.state ≠ .Done →
    sc.left base < fuel → Ends P I base sc out (scanLoop opts base fuel sc out) := by
  intro fuel
  induction fuel with
  | zero => intro sc out _ _ _ _ h; omega
  | succ fuel ih =>
    intro sc out hb hv hI hs hf
    rw [scanLoop]
    by_cases hgo : (decide (sc.state ≠ .Done) && (out.isEmpty || sc.keyPossible)) = true
    · rw [if_pos hgo, if_pos hb]
      have hT : Rest (base.drop sc.offset) sc.offset ⟨sc, base.drop sc.offset, out⟩ :=
        ⟨hv, ⟨[], rfl⟩, rfl, hs⟩
      have hP' : P ∨ Safe opts (base.drop sc.offset) := by
        rcases hP with h | h
        · exact .inl h
        · rw [← List.take_append_drop sc.offset base] at h
          exact .inr h.right
      have hstep := ((hC.and (closed_rest (base.drop sc.offset) sc.offset)).scanNextToken hP' ⟨hI, hT⟩ hs)
      unfold Holds at hstep
      generalize Scan.scanNextToken opts ⟨sc, base.drop sc.offset, out⟩ = r at hstep
      obtain ⟨o, s⟩ := r
      have hsuf : ∀ {buf : Str}, (∃ p, base.drop sc.offset = p ++ buf) → ∃ p, base = p ++ buf := by
        rintro buf ⟨p, hp⟩
        exact ⟨base.take sc.offset ++ p, by rw [List.append_assoc, ← hp, List.take_append_drop]⟩
      have hdrop : ∀ {buf : Str}, (∃ p, base = p ++ buf) → base.drop (base.length - buf.length) = buf := by
        rintro buf ⟨p, hp⟩
        rw [hp]; simp
      cases o with
      | ok a =>
        rcases hstep with ⟨⟨hI', hT'⟩, hprog⟩ | ⟨hnst, hfin⟩
        · have hs' := hsuf hT'.2.1
          have hd := hdrop hs'
          have hlt : Scanner.left base { s.sc with offset := base.length - s.buf.length } <
              sc.left base := ?_
          have hend := ih { s.sc with offset := base.length - s.buf.length } s.out ?_ ?_ ?_ ?_ ?_
          · simp only
            generalize scanLoop opts base fuel { s.sc with offset := base.length - s.buf.length } s.out = r at hend ⊢
            obtain ⟨o, sc', out'⟩ := r
            cases o with
            | ok u =>
              obtain ⟨e1, ⟨e2, e3, e4, e5, e6⟩ | e2⟩ := hend
              · refine ⟨e1, .inl ⟨e2, e3, e4, e5, .inl ?_⟩⟩
                rcases e6 with e6 | ⟨rfl, -⟩
                · omega
                · exact hlt
              · exact ⟨e1, .inr e2⟩
            | err e => exact hend
            | panic => exact hend
            | diverge => exact hend
          · exact boundary_of_drop hT'.1 hs'
          · simp only; rw [hd]; exact hT'.1
          · simp only
            rw [hd]
            exact hO _ hI'
          · exact hT'.2.2.2
          · omega
          · unfold Scanner.left
            simp only
            rw [hd]
            rcases hprog with ⟨h1, h2, h3⟩ | ⟨h1, h2, h3⟩
            · simp only at h1 h3
              rw [h1, h2, h3]
              simp
            · simp only at h1 h2 h3
              rw [h2]
              simp only [h1, hs, ↓reduceIte]
              omega
        · obtain @⟨s1, ⟨h1, h2⟩, h3, h4, h5, h6⟩ := hfin
          have hs' := hsuf h2.2.1
          have hd := hdrop hs'
          simp only [SS.put]
          cases fuel with
          | zero => 
            unfold Scanner.left at hf
            simp only [hs, ↓reduceIte] at hf
            split at hf <;> omega
          | succ fuel =>
            rw [scanLoop_done rfl]
            refine ⟨boundary_of_drop h2.1 hs', .inr ?_⟩
            simp only
            rw [hd]
            exact Finished.intro (s := ⟨{ s1.sc with offset := base.length - s1.buf.length }, s1.buf, s1.out⟩)
              (hO _ h1) h3 h4 h5 h6
      | err e =>
        obtain ⟨hI', hT'⟩ := hstep
        by_cases he : e = .Extend
        · simp only [he, ↓reduceIte]
          exact ⟨⟨s.buf, hO _ hI', fun _ => (hdrop (hsuf hT'.2.1)).symm⟩, boundary_of_drop hT'.1 (hsuf hT'.2.1),
            hT'.2.2.2⟩
        · simp only [he, ↓reduceIte]
          exact ⟨⟨s.buf, hI', fun h => absurd h he⟩, by rw [hT'.2.2.1]; exact hb, hT'.2.2.2⟩
      | panic => exact hstep
      | diverge => exact hstep
    · rw [if_neg hgo]
      simp only [ne_eq, Bool.and_eq_true, decide_eq_true_eq, not_and, Bool.not_eq_true,
        Bool.or_eq_false_iff, List.isEmpty_eq_false_iff] at hgo
      exact ⟨hb, .inl ⟨hI, hs, (hgo hs).1, (hgo hs).2, .inr ⟨rfl, rfl⟩⟩⟩

end Yary
