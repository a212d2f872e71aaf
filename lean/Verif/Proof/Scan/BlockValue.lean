import Verif.Proof.Scan.BlockText

/-! # Block scalars: the step that scans one -/

namespace Yary

open Spec

variable {opts : SFlags}

theorem popLoop_below {n : Nat} {column : Option Nat} {l : List IndentEntry} {i : Nat} (h : i < n ∧ ∀ e ∈ l, e.indent < n) :
    (popLoop column l i).2.1 < n ∧ ∀ e ∈ (popLoop column l i).1, e.indent < n := by
  induction l generalizing i with
  | nil => exact h
  | cons e es ih =>
    rw [popLoop]
    split
    · exact ih ⟨h.2 e (by simp), fun e' h' => h.2 e' (by simp [h'])⟩
    · exact h

/-- Before a token, block collections end, but nothing else changes in the context. -/
theorem prepare_context {s s1 : SS} (h1 : Scan.prepare opts s = (.ok (), s1)) :
    s1.sc.context.flow = s.sc.context.flow ∧ ∀ n, IndentedBelow n s.sc.context → IndentedBelow n s1.sc.context := by
  unfold Scan.prepare at h1
  replace h1 := bind_ok h1
  obtain ⟨_, s2, e2, h1⟩ := h1
  replace h1 := bind_ok h1
  obtain ⟨_, s3, e3, h1⟩ := h1
  replace h1 := bind_ok h1
  obtain ⟨_, s4, e4, h1⟩ := h1
  obtain ⟨rfl, rfl⟩ := get_ok e4
  replace h1 := bind_ok h1
  obtain ⟨_, s5, e5, h1⟩ := h1
  have c2 : s2.sc.context = s.sc.context := by
    unfold Scan.eatWhitespace at e2
    replace e2 := bind_ok e2
    obtain ⟨c, t1, f1, e2⟩ := e2
    replace e2 := bind_ok e2
    obtain ⟨_, t2, f2, e2⟩ := e2
    replace e2 := bind_ok e2
    obtain ⟨_, t3, f3, e2⟩ := e2
    obtain ⟨rfl, rfl⟩ := get_ok f3
    obtain ⟨-, rfl⟩ := sub_ok f1
    rw [commit_ok e2, upd_ok f2]
    rfl
  have c3 : s3.sc.context = s2.sc.context := by
    unfold Scan.expireKey at e3
    replace e3 := bind_ok e3
    obtain ⟨_, t1, f1, e3⟩ := e3
    obtain ⟨rfl, rfl⟩ := get_ok f1
    cases hk : s2.sc.key with
    | none => simp only [hk] at e3; cases e3; rfl
    | some k =>
      simp only [hk] at e3
      split at e3
      · split at e3
        · cases e3
        · rw [upd_ok e3]
      · cases e3; rfl
  have c4 : s5.sc.context = (s3.sc.context.indentDecrement (some s3.sc.stats.column)).1 := by
    cases e5
    rfl
  have k4 : s5.sc.context.flow = s.sc.context.flow ∧ ∀ n, IndentedBelow n s.sc.context → IndentedBelow n s5.sc.context := by
    rw [c4, c3, c2]
    unfold Context.indentDecrement
    split
    · exact ⟨rfl, fun n h => popLoop_below h⟩
    · exact ⟨rfl, fun n h => h⟩
  have k5 : s1.sc.context.flow = s5.sc.context.flow ∧ ∀ n, IndentedBelow n s5.sc.context → IndentedBelow n s1.sc.context := by
    unfold Scan.popZeroIndent SO.modify at h1
    obtain ⟨-, h1⟩ := Prod.mk.inj h1
    cases he : s5.sc.context.indents with
    | nil =>
      simp only [he] at h1
      subst h1
      exact ⟨rfl, fun n h => h⟩
    | cons e es =>
      simp only [he] at h1
      split at h1 <;> subst h1
      · refine ⟨rfl, fun n h => ?_⟩
        unfold IndentedBelow at h ⊢
        rw [he] at h
        exact ⟨h.2 e (by simp), fun e' h' => h.2 e' (by simp [h'])⟩
      · exact ⟨rfl, fun n h => h⟩
  exact ⟨k5.1.trans k4.1, fun n h => k5.2 n (k4.2 n h)⟩

theorem written_ascii {x : BlockScalar} {n : Nat} (hok : x.Ok) : Ascii (x.written n) := by
  have hl : ∀ l ∈ x.first :: x.more, Ascii l.text := fun l h => LineText.ascii (hok.1 l h).2
  have h1 : Ascii [if x.fold then b! '>' else b! '|'] := by
    intro b hb
    simp only [List.mem_singleton] at hb
    subst hb
    split <;> decide
  have h2 : Ascii x.chomp.mark := by
    intro b hb
    cases hch : x.chomp <;> rw [hch] at hb <;> simp [Chomping.mark] at hb <;> subst hb <;> decide
  have h3 : Ascii (moreLines n x.more) := by
    intro b hb
    obtain ⟨l, hl', hb⟩ := List.mem_flatMap.1 hb
    exact Ascii.append (Ascii.append newlines_ascii spaces_ascii) (hl l (by simp [hl'])) b hb
  exact Ascii.append h1 (((((h2.append newlines_ascii).append spaces_ascii).append (hl x.first (by simp))).append h3).append newlines_ascii)

/-- A block scalar is scanned, in the block context. -/
theorem step_block_ok (hx : opts.extendable = false) (hl : opts.lazy = false) {s : SS} {x : BlockScalar} {n j : Nat} {q : Str} (hk : ¬ KeyDue s)
    (hf : s.sc.context.flow = 0) (hi : IndentedBelow n s.sc.context) (hok : x.Ok) (hb : x.Before n j q)
    (hc : Comes s (x.written n ++ (spaces j ++ q))) :
    ∃ s', Scan.scanNextToken opts s = (.ok (), s') ∧ Pushes s s' (.Token (.Scalar (scannedValue x j q) (blockStyle x.fold))) ∧ s'.buf = q := by
  generalize hI : (if x.fold then b! '>' else b! '|') = ind
  have hind : ind = b! '>' ∧ x.fold = true ∨ ind = b! '|' ∧ x.fold = false := by rw [← hI]; cases x.fold <;> simp
  obtain ⟨text, ht⟩ : ∃ text, x.written n ++ (spaces j ++ q) = ind :: text := ⟨_, by rw [BlockScalar.written, hI]; rfl⟩
  have hh : HeadOk (x.written n ++ (spaces j ++ q)) := by
    rw [ht]
    refine .cons ?_
    rcases hind with ⟨rfl, -⟩ | ⟨rfl, -⟩ <;> decide
  obtain ⟨s1, l, h1, h2, h3, h4, h5, -, h7⟩ := step_prepared hx hk hc hh (by rw [ht]; simp)
  obtain ⟨c1, c2⟩ := prepare_context h7
  have hd : Scan.dispatch s1.sc.context s1.sc.stats.column (x.written n ++ (spaces j ++ q)) = .block x.fold := by
    rw [ht]
    rw [hf] at c1
    have hbl : s1.sc.context.isBlock = true := by simp [Context.isBlock, c1]
    rcases hind with ⟨rfl, h⟩ | ⟨rfl, h⟩ <;> simp [Scan.dispatch, startsWith, startsMarker, hbl, h]
  rw [hd] at h1
  have hlev : s1.sc.context.level.getD 0 < n := by
    have := (c2 n hi).1
    unfold Context.level
    split
    · exact this
    · simp; omega
  obtain ⟨m', e1⟩ := scanBlockEager_text (m := s1.sc.stats) hx hok hb hlev
  simp only [Scan.run, Scan.fetchBlockScalar] at h1
  rw [bind_run (removeSavedKey_run h3)] at h1
  have hsb : scanBlock opts (s1.sc.context.level.getD 0) x.fold ⟨s1.buf, s1.sc.stats⟩ =
      .ok (.Token (.Scalar (scannedValue x j q) (blockStyle x.fold)), ⟨q, m'⟩) := by
    unfold scanBlock
    rw [hl, h2, e1]
    rfl
  have hbd : isBoundary s1.buf (s1.buf.length - q.length) = true := by
    rw [h2]
    have hA : Around (x.written n ++ (spaces j ++ q)) q := by
      refine ⟨⟨x.written n ++ spaces j, by simp, Ascii.append (written_ascii hok) spaces_ascii⟩, ?_⟩
      rcases hb.2.2 with rfl | ⟨b, t, rfl, -, h⟩
      · intro b t h; cases h
      · exact .cons (by byte_omega)
    exact hA.boundary (by simp; omega)
  simp only [bind, SO.bind, Scan.upd, SO.modify, Scan.get, SO.get, Scan.sub, SO.lift, hsb, Scan.commit, hbd, ↓reduceIte, Scan.enqueue] at h1
  refine ⟨_, h1, ⟨l, ?_, h5⟩, rfl⟩
  unfold pushedBy
  simp only [h4]
  rw [List.append_assoc, List.drop_left]

end Yary
