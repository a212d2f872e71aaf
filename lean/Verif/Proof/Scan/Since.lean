import Verif.Proof.Scan.Candidate
import Verif.Props.Position

/-! # The text between a possible key and its `:` -/

namespace Yary

open Spec

variable {opts : SFlags}

theorem Spec.Skips.suffix {comments : Bool} {s r : Str} {n : Nat} (h : Skips comments s n r) : ∃ p, s = p ++ r := by
  induction h with
  | done => exact ⟨[], rfl⟩
  | blank _ _ ih => obtain ⟨p, rfl⟩ := ih; exact ⟨_ :: p, rfl⟩
  | @line w _ _ _ _ _ ih => obtain ⟨p, rfl⟩ := ih; exact ⟨w ++ p, by simp⟩
  | @comment body _ _ _ _ _ _ _ ih => obtain ⟨p, rfl⟩ := ih; exact ⟨0x23 :: (body ++ p), by simp⟩

/-- What is left to read is the end of the text. -/
structure TailOf (base : Str) (s : SS) : Prop where
  valid : validUtf8 s.buf = true
  suffix : ∃ p, base = p ++ s.buf

theorem TailOf.move' {base : Str} {s s' : SS} {c : Cur} (h : TailOf base s) (hc : Hops s c) (h1 : s'.buf = c.buf) :
    TailOf base s' := by
  obtain ⟨p, hp⟩ := h.suffix
  obtain ⟨q, hq⟩ := hc.moves.suffix
  simp only at hq
  exact ⟨h1 ▸ hc.valid, ⟨p ++ q, by rw [h1, List.append_assoc, ← hq, hp]⟩⟩

theorem closed_tailOf {base : Str} : Closed (TailOf base) where
  valid h := h.valid
  flags _ h := ⟨h.valid, h.suffix⟩
  first h _ := ⟨h.valid, h.suffix⟩
  noKey h := ⟨h.valid, h.suffix⟩
  stale h _ := ⟨h.valid, h.suffix⟩
  save _ h := ⟨h.valid, h.suffix⟩
  move h h1 := h.move' h1 rfl
  node h h1 _ _ _ := h.move' h1 rfl
  plain h _ _ := ⟨h.valid, h.suffix⟩
  boundary h _ _ _ _ := ⟨h.valid, h.suffix⟩
  pop _ h _ := ⟨h.valid, h.suffix⟩
  roll _ _ _ h _ := ⟨h.valid, h.suffix⟩
  touch _ h _ := ⟨h.valid, h.suffix⟩
  rollKey _ _ h _ _ _ _ _ := ⟨h.valid, h.suffix⟩
  useKey h _ _ _ _ := ⟨h.valid, h.suffix⟩
  flowStart _ h := ⟨h.valid, h.suffix⟩
  flowEnd _ h _ _ := ⟨h.valid, h.suffix⟩

theorem reach_tailOf {base : Str} (hv : validUtf8 base = true) {s : SS} (h : Reach false opts base s) : TailOf base s :=
  reach_keeps closed_tailOf (fun _ h => ⟨h.valid, h.suffix⟩)
    (fun _ h => ⟨h.valid, h.suffix⟩) (fun _ h _ => ⟨h.valid, h.suffix⟩) ⟨hv, ⟨[], rfl⟩⟩ h

/-- What is known of a possible key: the text from there to the current position was read and counted,
unless a verbatim tag left a `>`. -/
def Since (opts : SFlags) (base : Str) (s : SS) : Prop :=
  ∀ k, s.sc.key = some k → k.possible.allowed = true → s.buf = [] ∨
    (startsWith s.buf b! '>' = true ∧ s.sc.state ≠ .Start) ∨
    ∃ b, Spec.FoundAt opts base k b ∧ Reads ⟨b, k.stats⟩ ⟨s.buf, s.sc.stats⟩

theorem reach_since {base : Str} (hv : validUtf8 base = true) {s : SS} (h : Reach false opts base s) :
    Since opts base s := by
  induction h with
  | start => exact fun k hk => by cases hk
  | fail he => cases he
  | more he => cases he
  | hand h ih => exact ih
  | offset n h ih => exact ih
  | @step s s' h hd hs ih =>
    have hB := reach_before hv h
    by_cases hst : s.sc.state = .Start
    · unfold Scan.scanNextToken at hs
      replace hs := bind_ok hs
      obtain ⟨_, s1, h1, hs⟩ := hs
      obtain ⟨rfl, rfl⟩ := get_ok h1
      simp only [hst, beq_self_eq_true, ↓reduceIte] at hs
      unfold Scan.fetchStreamStart at hs
      replace hs := bind_ok hs
      obtain ⟨_, s2, h2, hs⟩ := hs
      have e1 := upd_ok h2
      have e2 := push_ok hs
      rw [e2, e1]
      intro k hk ha
      rcases ih k hk ha with h | ⟨h, h'⟩ | h
      · exact .inl h
      · exact absurd hst h'
      · exact .inr (.inr h)
    · intro k hk ha
      have hst' : s'.sc.state ≠ .Start := by
        rcases (closed_before.scanNextToken (P := True) (opts := opts) (.inl trivial) hB hd).of_ok hs with
          ⟨h1, ⟨-, h2, -⟩ | ⟨h2, h3, -⟩⟩ | ⟨-, h1⟩
        · rw [h2]; simp
        · rw [h3]; exact h2
        · obtain @⟨s, h, -, -, -, -⟩ := h1
          simp [SS.put]
      by_cases hg : startsWith s.buf b! '>' = true
      · have := (fold_step hB hst hd hg hs).1
        rw [hk] at this; cases this
      obtain ⟨s1, h1, h2⟩ := step_cases hs hst
      obtain ⟨hB1, hr1, hst1, -, -, hkey⟩ := prepare_ok hB h1
      obtain ⟨s2, h3, h4, h5⟩ := prepare_buf hB h1
      obtain ⟨n, p, g1, -⟩ := C14_line_change h3
      rw [← h4] at g1
      -- a key that was there before the token
      have old : s1.sc.key = some k → s'.buf = [] ∨ startsWith s'.buf b! '>' = true ∨
          Reads ⟨s1.buf, s1.sc.stats⟩ ⟨s'.buf, s'.sc.stats⟩ → s'.buf = [] ∨
          (startsWith s'.buf b! '>' = true ∧ s'.sc.state ≠ .Start) ∨
          ∃ b, Spec.FoundAt opts base k b ∧ Reads ⟨b, k.stats⟩ ⟨s'.buf, s'.sc.stats⟩ := by
        intro hk1 h
        rcases h with h | h | h
        · exact .inl h
        · exact .inr (.inl ⟨h, hst'⟩)
        · have hk0 : s.sc.key = some k := by
            rcases hkey k hk1 with h | ⟨k0, -, h⟩
            · exact h
            · rw [h] at ha; cases ha
          rcases ih k hk0 ha with h' | ⟨h', -⟩ | ⟨b, h', h''⟩
          · left
            obtain ⟨q, hq⟩ := (hr1.trans h).suffix
            simp only [h'] at hq
            exact (List.append_eq_nil_iff.1 hq.symm).2
          · exact absurd h' hg
          · exact .inr (.inr ⟨b, h', h''.trans (hr1.trans h)⟩)
      rcases h2 with ⟨hnil, h2⟩ | ⟨hnil, h2⟩
      · rcases hnil with hnil | hnil
        · exfalso
          have hd1 : (s1.sc.state == .Done) = false := by rw [hst1]; simpa using hd
          unfold Scan.fetchStreamEnd at h2
          replace h2 := bind_ok h2
          obtain ⟨_, s3, e, h2⟩ := h2
          obtain ⟨rfl, rfl⟩ := get_ok e
          simp only [hd1, Bool.false_eq_true, ↓reduceIte, hnil, List.isEmpty_nil] at h2
          have : Clears (do Scan.unrollIndent none; Scan.removeSavedKey
                            Scan.upd fun sc => { sc with state := .Done }; Scan.push .StreamEnd) :=
            .right fun _ => Clears.removeKey.left fun _ => (Drops.upd).bind fun _ => Drops.push _
          have := this _ _ _ h2
          rw [hk] at this; cases this
        · rw [hst1] at hnil; exact absurd hnil hd
      · by_cases hnode : (Scan.dispatch s1.sc.context s1.sc.stats.column s1.buf).isNode = true
        · have hn := run_node hB1 hnode h2
          rcases hn.key k hk with h' | h'
          · refine old h' ?_
            rcases hn.reads with h | h | h
            · exact .inr (.inr h)
            · exact .inl h
            · exact .inr (.inl h)
          · rcases hn.reads with h'' | h'' | h''
            · exact .inr (.inr ⟨s1.buf, ⟨s, s', n, s1.buf, h, hs, hk, g1, .inl rfl⟩, by rw [h']; exact h''⟩)
            · exact .inl h''
            · exact .inr (.inl ⟨h'', hst'⟩)
        · have hds := Closed.dispatch_starts s1.sc.context s1.sc.stats.column s1.buf
          generalize Scan.dispatch s1.sc.context s1.sc.stats.column s1.buf = f at h2 hnode hds
          by_cases hf : ∃ map, f = .flowStart map
          · obtain ⟨map, rfl⟩ := hf
            obtain ⟨t, ht⟩ := hds
            obtain ⟨e1, e2⟩ := flowStart_reads h2
            have hx : ∃ x, (x = b! '[' ∨ x = b! '{') ∧ s1.buf = x :: s'.buf := by
              refine ⟨_, ?_, by rw [e1, ht]; rfl⟩
              cases map <;> simp
            obtain ⟨x, hx, hb⟩ := hx
            rcases flowStart_key h2 hk with h' | h'
            · refine old h' (.inr (.inr ?_))
              rw [e2, hb]
              exact .one (by rcases hx with rfl | rfl <;> rfl)
            · exact .inr (.inr ⟨s'.buf, ⟨s, s', n, s1.buf, h, hs, hk, g1, .inr ⟨x, hx, hb⟩⟩, by
                rw [h', e2]; exact .refl _⟩)
          · have := Clears.run (opts := opts) (by simpa using hnode) (fun map h => hf ⟨map, h⟩) s1 _ _ h2
            rw [hk] at this; cases this

end Yary
