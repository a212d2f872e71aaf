import Verif.Proof.Chunk.Retry
import Verif.Proof.Chunk.Pushes
import Verif.Model.Scan.Owned

/-! # The loop of the scanner on the beginning of a text -/

namespace Yary.Chunk

open Scan

/-- What a step leaves is a text and the end of what was there. -/
theorem step_rest {o : SFlags} {s : SS} (hv : validUtf8 s.buf = true) (hd : s.sc.state ≠ .Done) :
    (∀ s1, scanNextToken o s = (.ok (), s1) → validUtf8 s1.buf = true ∧ ∃ p, s.buf = p ++ s1.buf) ∧
    (∀ e s1, scanNextToken o s = (.err e, s1) → validUtf8 s1.buf = true ∧ (∃ p, s.buf = p ++ s1.buf) ∧
      s1.sc.state ≠ .Done) := by
  have h := (closed_rest s.buf s.sc.offset).scanNextToken (P := True) (opts := o) (s := s) (.inl trivial)
    ⟨hv, ⟨[], rfl⟩, rfl, hd⟩ hd
  unfold Holds at h
  refine ⟨fun s1 h1 => ?_, fun e s1 h1 => ?_⟩
  · rw [h1] at h
    rcases h with ⟨h, -⟩ | ⟨-, h⟩
    · exact ⟨h.1, h.2.1⟩
    · obtain @⟨s2, h2, -⟩ := h
      exact ⟨h2.1, h2.2.1⟩
  · rw [h1] at h
    exact ⟨h.1, h.2.1, h.2.2.2⟩

/-- What the loop does with the outcome of a step. -/
def scanGo (opts : SFlags) (base : Str) (fuel : Nat) :
    Out ScanError Unit × SS → Out ScanError Unit × Scanner × List TokenEntry
  | (.ok _, s) => scanLoop opts base fuel { s.sc with offset := base.length - s.buf.length } s.out
  | (.err e, s) =>
    if e = .Extend then (.err e, { s.sc with offset := base.length - s.buf.length }, s.out) else (.err e, s.sc, s.out)
  | (.panic, s) => (.panic, s.sc, s.out)
  | (.diverge, s) => (.diverge, s.sc, s.out)

theorem scanLoop_go {opts : SFlags} {base : Str} {fuel : Nat} {sc : Scanner} {out : List TokenEntry}
    (hd : sc.state ≠ .Done) (hk : out = [] ∨ sc.keyPossible = true) (hb : isBoundary base sc.offset = true) :
    scanLoop opts base (fuel + 1) sc out = scanGo opts base fuel (scanNextToken opts ⟨sc, base.drop sc.offset, out⟩) := by
  rw [scanLoop, if_pos, if_pos hb]
  · generalize scanNextToken opts ⟨sc, base.drop sc.offset, out⟩ = r
    obtain ⟨x, s⟩ := r
    cases x <;> rfl
  · rcases hk with rfl | hk
    · simp [hd]
    · simp [hd, hk]

theorem scanLoop_stop {opts : SFlags} {base : Str} {fuel : Nat} {sc : Scanner} {out : List TokenEntry}
    (h : sc.state = .Done ∨ out ≠ [] ∧ sc.keyPossible = false) : scanLoop opts base (fuel + 1) sc out = (.ok (), sc, out) := by
  rw [scanLoop, if_neg]
  rcases h with h | ⟨h1, h2⟩
  · simp [h]
  · simp [h1, h2]

/-- The scanner in the buffer `head`, after which `rem` is to come, is where the whole text has come to. -/
structure Lined (head rem text : Str) (sc : Scanner) (k : Nat) : Prop where
  boundary : isBoundary head sc.offset = true
  valid : validUtf8 (head.drop sc.offset) = true
  whole : isBoundary text k = true
  rest : text.drop k = head.drop sc.offset ++ rem
  zeroed : ZeroedIn sc.context

/-- What the loop on the beginning of the text, `c`, and on the text, `w`, come to. -/
def Sim (o' : SFlags) (head rem text : Str) (pre : Pre) (c w : Out ScanError Unit × Scanner × List TokenEntry) : Prop :=
  match c with
  | (.ok _, sc, out) => ∃ k, w = (.ok (), { sc with offset := k }, pre.on out) ∧ Lined head rem text sc k
  | (.err e, sc, out) =>
    if e = .Extend then ∃ k' k fuel, Lined head rem text sc k' ∧ sc.state ≠ .Done ∧
      w = scanGo o' text fuel (scanNextToken o' (SS.grow rem k pre ⟨sc, head.drop sc.offset, out⟩))
    else w.1 = .err e ∧ w.2.2 = pre.on out
  | (.panic, _, out) => w.1 = .panic ∧ w.2.2 = pre.on out
  | (.diverge, _, _) => True

theorem drop_of_suffix {base buf : Str} (h : ∃ p, base = p ++ buf) : base.drop (base.length - buf.length) = buf := by
  obtain ⟨p, rfl⟩ := h
  simp

variable {U V : Str → Prop} {W : Prop} {o o' : SFlags} {head rem text : Str}

/-- Where the buffers are after a step. -/
theorem Lined.step {s : SS} {k : Nat} {sc : Scanner} (h : Lined head rem text sc k) (hr : validUtf8 rem = true)
    (hv : validUtf8 s.buf = true) (hs : ∃ p, head.drop sc.offset = p ++ s.buf) (hz : ZeroedIn s.sc.context) :
    Lined head rem text { s.sc with offset := head.length - s.buf.length } (text.length - (s.buf ++ rem).length) := by
  obtain ⟨p, hp⟩ := hs
  have h1 : ∃ p, head = p ++ s.buf := ⟨head.take sc.offset ++ p, by rw [List.append_assoc, ← hp, List.take_append_drop]⟩
  have h2 : ∃ p, text = p ++ (s.buf ++ rem) :=
    ⟨text.take k ++ p, by rw [List.append_assoc, ← List.append_assoc p, ← hp, ← h.rest, List.take_append_drop]⟩
  refine ⟨boundary_of_drop hv h1, ?_, boundary_of_drop (by rw [validUtf8_append hv]; exact hr) h2, ?_, hz⟩
  · show validUtf8 (head.drop (head.length - s.buf.length)) = true
    rw [drop_of_suffix h1]; exact hv
  · show _ = head.drop (head.length - s.buf.length) ++ rem
    rw [drop_of_suffix h1, drop_of_suffix h2]

theorem scanLoop_sim {g : MaybeToken → MaybeToken} (hS : Subs g U V W o o' rem)
    (hV : ∀ s, validUtf8 s = true → (∀ b ∈ s, b ∈ text) → V s) (hr : validUtf8 rem = true)
    (hretry : ∀ s s1 k (pre : Pre), pre.g = g → V s.buf → ZeroedIn s.sc.context → s.sc.state ≠ .Done →
      scanNextToken o s = (.err .Extend, s1) →
      scanNextToken o' (SS.grow rem k pre s) = scanNextToken o' (SS.grow rem k pre s1)) :
    ∀ fc (sc : Scanner) (out : List TokenEntry) fw k k' (pre : Pre), pre.g = g → Lined head rem text sc k' → sc.state ≠ .Done →
    (out = [] ∨ sc.keyPossible = true) →
    (scanGo o' text fw (scanNextToken o' (SS.grow rem k pre ⟨sc, head.drop sc.offset, out⟩))).1 ≠ .diverge →
    Sim o' head rem text pre (scanLoop o head fc sc out)
      (scanGo o' text fw (scanNextToken o' (SS.grow rem k pre ⟨sc, head.drop sc.offset, out⟩))) := by
  intro fc
  induction fc with
  | zero => intros; trivial
  | succ fc ih =>
    intro sc out fw k k' pre hg hL hd hk hw
    subst hg
    have hVb : V (head.drop sc.offset) := hV _ hL.valid fun b hb => List.drop_subset k' text (by rw [hL.rest]; exact List.mem_append_left _ hb)
    rw [scanLoop_go hd hk hL.boundary]
    have hf := scanNextToken_follows (k := k) (pre := pre) (s := ⟨sc, head.drop sc.offset, out⟩) hS hVb
    have hrest := step_rest (o := o) (s := ⟨sc, head.drop sc.offset, out⟩) hL.valid hd
    have hzero := Keeps.scanNextToken (o := o) ⟨sc, head.drop sc.offset, out⟩ hL.zeroed
    have hpush := fun s1 => scanNextToken_pushes (o := o) (s := ⟨sc, head.drop sc.offset, out⟩) (s1 := s1) hL.valid hd
    have hret := fun s1 => hretry ⟨sc, head.drop sc.offset, out⟩ s1 k pre rfl hVb hL.zeroed hd
    unfold Follows at hf
    generalize scanNextToken o ⟨sc, head.drop sc.offset, out⟩ = r at hf hrest hzero hpush hret
    obtain ⟨x, s1⟩ := r
    cases x with
    | ok u =>
      obtain ⟨_, h1, -, -⟩ := hf
      obtain ⟨hv1, hs1⟩ := hrest.1 s1 rfl
      have hL1 := hL.step hr hv1 hs1 hzero
      have hp := hpush s1 rfl
      have hne : s1.out ≠ [] := by intro h0; rw [h0] at hp; simp at hp
      rw [h1] at hw ⊢
      simp only [scanGo] at hw ⊢
      cases fw with
      | zero => exact absurd rfl hw
      | succ fw =>
        have hg : (SS.grow rem k pre s1).sc.state = s1.sc.state := rfl
        by_cases hstop : s1.sc.state = .Done ∨ s1.sc.keyPossible = false
        · rw [scanLoop_stop (opts := o') (by
            rcases hstop with h | h
            · exact .inl h
            · exact .inr ⟨by simp [SS.grow, Pre.on, hne], h⟩)]
          cases fc with
          | zero => trivial
          | succ fc =>
            rw [scanLoop_stop (opts := o) (by
              rcases hstop with h | h
              · exact .inl h
              · exact .inr ⟨hne, h⟩)]
            exact ⟨_, rfl, hL1⟩
        · have hd1 : s1.sc.state ≠ .Done := fun h => hstop (.inl h)
          have hk1 : s1.sc.keyPossible = true := by
            cases h : s1.sc.keyPossible with
            | true => rfl
            | false => exact absurd (.inr h) hstop
          have hgo := scanLoop_go (opts := o') (base := text) (fuel := fw)
            (sc := { (SS.grow rem k pre s1).sc with offset := text.length - (SS.grow rem k pre s1).buf.length })
            (out := (SS.grow rem k pre s1).out) hd1 (.inr hk1) hL1.whole
          rw [hgo] at hw ⊢
          have he : (⟨{ (SS.grow rem k pre s1).sc with offset := text.length - (SS.grow rem k pre s1).buf.length },
              text.drop (text.length - (SS.grow rem k pre s1).buf.length), (SS.grow rem k pre s1).out⟩ : SS) =
              SS.grow rem (text.length - (s1.buf ++ rem).length) pre
                ⟨{ s1.sc with offset := head.length - s1.buf.length }, head.drop (head.length - s1.buf.length), s1.out⟩ := by
            have := hL1.rest
            simp only [SS.grow] at this ⊢
            rw [this]
          simp only at he
          simp only [he] at hw ⊢
          exact ih { s1.sc with offset := head.length - s1.buf.length } s1.out fw _ _ pre rfl hL1 hd1 (.inr hk1) hw
    | err e =>
      by_cases he : e = .Extend
      · subst he
        obtain ⟨hv1, hs1, hd1⟩ := hrest.2 _ s1 rfl
        have hL1 := hL.step hr hv1 hs1 hzero
        have hb : head.drop (head.length - s1.buf.length) = s1.buf := by
          obtain ⟨p, hp⟩ := hs1
          exact drop_of_suffix ⟨head.take sc.offset ++ p, by rw [List.append_assoc, ← hp, List.take_append_drop]⟩
        simp only [scanGo, if_pos, Sim]
        refine ⟨_, k, fw, hL1, hd1, ?_⟩
        rw [hret s1 rfl]
        simp only [hb]
        rfl
      · have h1 := hf.resolve_left he
        rw [h1]
        simp only [scanGo, if_neg he, Sim]
        exact ⟨trivial, rfl⟩
    | panic =>
      rw [show scanNextToken o' _ = _ from hf]
      exact ⟨rfl, rfl⟩
    | diverge => trivial

end Yary.Chunk
