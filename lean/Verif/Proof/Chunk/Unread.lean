import Verif.Proof.Chunk.Owned
import Verif.Proof.Scan.Keys

/-! # What a reader of a source has not read -/

namespace Yary.Chunk

open Scan Spec

variable {errs : Bool} {size : Nat → Nat → Nat} {opts : SFlags} {src : Source} {ow : Owned} {sc : Scanner}

/-- What is always so between two calls of the scanner. -/
structure Sound (ow : Owned) (sc : Scanner) : Prop where
  valid : validUtf8 ow.head = true
  boundary : isBoundary ow.head sc.offset = true
  done : sc.state = .Done → ow.exhausted = true ∧ ow.head.drop sc.offset = []

theorem prepare_nonempty (hx : opts.extendable = true) {s s1 : SS} (hv : validUtf8 s.buf = true)
    (h : Scan.prepare opts s = (.ok (), s1)) : s1.buf ≠ [] := by
  unfold Scan.prepare at h
  obtain ⟨_, s2, h2, h⟩ := bind_ok h
  have hw : s2.buf ≠ [] := by
    unfold eatWhitespace at h2
    obtain ⟨c, s3, h3, h2⟩ := bind_ok h2
    obtain ⟨hc, rfl⟩ := sub_ok h3
    obtain ⟨_, s4, h4, h2⟩ := bind_ok h2
    obtain ⟨_, s5, h5, h2⟩ := bind_ok h2
    rw [commit_ok h2]
    have hl := eatWs_later (o := opts) (o' := { opts with extendable := false }) (t := []) hx rfl (fun _ _ h => by cases h)
      (comments := true) (c := ⟨s.buf, {}⟩) hv
    rw [hc] at hl
    rcases hl with hl | ⟨_, -, -, h1, -⟩
    · exact hl.elim
    · exact h1
  obtain ⟨_, s3, h3, h⟩ := bind_ok h
  obtain ⟨hb3, -, -, -⟩ := expireKey_settled h3
  obtain ⟨_, _, hg, h⟩ := bind_ok h
  obtain ⟨rfl, rfl⟩ := get_ok hg
  obtain ⟨_, s4, h4, h⟩ := bind_ok h
  have hb4 : s4.buf = s3.buf := by
    unfold unrollIndent SO.modify at h4
    cases h4
    rfl
  have hb1 : s1.buf = s4.buf := by
    unfold popZeroIndent SO.modify at h
    rw [← show _ = s1 from congrArg Prod.snd h]
    dsimp only
    split
    · rfl
    · split <;> rfl
  rw [hb1, hb4, hb3]
  exact hw

/-- In a text that may go on the stream does not end. -/
theorem scanNextToken_on (hx : opts.extendable = true) {s s' : SS} (hv : validUtf8 s.buf = true) (hd : s.sc.state ≠ .Done)
    (h : scanNextToken opts s = (.ok (), s')) : s'.sc.state ≠ .Done := by
  have hR : Rest s.buf s.sc.offset s := ⟨hv, ⟨[], rfl⟩, rfl, hd⟩
  by_cases hst : s.sc.state = .Start
  · have := (closed_rest s.buf s.sc.offset).scanNextToken (P := True) (opts := opts) (.inl trivial) hR hd
    unfold Holds at this
    rw [h] at this
    rcases this with ⟨h1, -⟩ | ⟨h1, -⟩
    · exact h1.2.2.2
    · exact absurd hst h1
  · obtain ⟨s1, h1, h2⟩ := step_cases h hst
    have hn := prepare_nonempty hx hv h1
    have hp := (closed_rest s.buf s.sc.offset).prepare (P := True) (opts := opts) (.inl trivial) hR
    unfold Holds at hp
    rw [h1] at hp
    obtain ⟨hp1, -, -, hp2⟩ := hp
    rcases h2 with ⟨h2 | h2, -⟩ | ⟨-, h2⟩
    · exact absurd h2 hn
    · exact absurd h2 hp1.2.2.2
    · have hr := (closed_rest s.buf s.sc.offset).run (P := True) (opts := opts) (.inl trivial) hp1 hp2
      unfold Holds at hr
      rw [h2] at hr
      exact hr.1.2.2.2

theorem scanLoop_on {base : Str} :
    ∀ fuel (sc : Scanner) (out : List TokenEntry), validUtf8 (base.drop sc.offset) = true → sc.state ≠ .Done →
      sc.offset ≤ base.length → (scanLoop opts base fuel sc out).1 ≠ .panic →
      sc.offset ≤ (scanLoop opts base fuel sc out).2.1.offset ∧
      (opts.extendable = true → (scanLoop opts base fuel sc out).2.1.state ≠ .Done) := by
  intro fuel
  induction fuel with
  | zero => intro sc out hv hd hle _; exact ⟨Nat.le_refl _, fun _ => hd⟩
  | succ fuel ih =>
    intro sc out hv hd hle
    rw [scanLoop]
    split
    · split
      · have hR : Rest (base.drop sc.offset) sc.offset ⟨sc, base.drop sc.offset, out⟩ := ⟨hv, ⟨[], rfl⟩, rfl, hd⟩
        have hstep := (closed_rest (base.drop sc.offset) sc.offset).scanNextToken (P := True) (opts := opts) (.inl trivial) hR hd
        have hon := @scanNextToken_on opts
        unfold Holds at hstep
        cases hr : scanNextToken opts ⟨sc, base.drop sc.offset, out⟩ with
        | mk x s =>
        rw [hr] at hstep
        have hdrop : ∀ {buf : Str}, (∃ p, base.drop sc.offset = p ++ buf) →
            base.drop (base.length - buf.length) = buf ∧ sc.offset ≤ base.length - buf.length := by
          rintro buf ⟨p, hp⟩
          have h1 : base = (base.take sc.offset ++ p) ++ buf := by
            rw [List.append_assoc, ← hp, List.take_append_drop]
          have h2 := congrArg List.length hp
          rw [List.length_drop, List.length_append] at h2
          refine ⟨?_, by omega⟩
          have h3 : base.length - buf.length = (base.take sc.offset ++ p).length := by
            have := congrArg List.length h1
            rw [List.length_append] at this
            omega
          rw [h3]
          have h4 : ((base.take sc.offset ++ p) ++ buf).drop (base.take sc.offset ++ p).length = buf := List.drop_left
          rwa [← h1] at h4
        cases x with
        | ok u =>
          simp only
          rcases hstep with ⟨h1, -⟩ | ⟨hnst, hfin⟩
          · obtain ⟨e1, e2⟩ := hdrop h1.2.1
            intro hp
            have := ih { s.sc with offset := base.length - s.buf.length } s.out (by simpa only [e1] using h1.1) h1.2.2.2
              (by simp only; omega) hp
            exact ⟨by have := this.1; simp only at this; omega, this.2⟩
          · have hfd : s.sc.state = .Done := by cases hfin; rfl
            have hfs : ∃ p, base.drop sc.offset = p ++ s.buf := by
              cases hfin with
              | intro h => exact h.2.1
            have e2 := (hdrop hfs).2
            intro _
            cases fuel with
            | zero =>
              simp only [scanLoop]
              exact ⟨e2, fun hx => absurd hfd (hon hx hv hd hr)⟩
            | succ fuel =>
              rw [scanLoop, if_neg (by simp [hfd])]
              exact ⟨e2, fun hx => absurd hfd (hon hx hv hd hr)⟩
        | err e =>
          simp only
          intro _
          split
          · exact ⟨(hdrop hstep.2.1).2, fun _ => hstep.2.2.2⟩
          · exact ⟨Nat.le_of_eq hstep.2.2.1.symm, fun _ => hstep.2.2.2⟩
        | panic => exact fun h => absurd rfl h
        | diverge => exact hstep.elim
      · exact ih sc out hv hd hle
    · exact fun _ => ⟨Nat.le_refl _, fun _ => hd⟩

theorem scanTokens_sound (h : Sound ow sc) {r : Out ScanError Unit} {sc' : Scanner} {out : List TokenEntry}
    (hs : scanTokens { opts with extendable := !ow.exhausted } ow.head sc = (r, sc', out)) (hr : r ≠ .panic) :
    Sound ow sc' ∧ r ≠ .diverge ∧ sc.offset ≤ sc'.offset ∧ (r = .err .Extend → ow.exhausted = false) := by
  by_cases hd : sc.state = .Done
  · rw [scanTokens, scanLoop_stop (.inl hd)] at hs
    cases hs
    exact ⟨h, (fun h => by cases h), Nat.le_refl _, (fun h => by cases h)⟩
  · have hv := validUtf8_drop h.valid h.boundary
    have hend : Ends True Plainly ow.head sc [] (scanTokens { opts with extendable := !ow.exhausted } ow.head sc) := by
      refine scanLoop_ends closed_plainly (fun _ h => h) (.inl trivial) _ _ _ h.boundary hv hv hd ?_
      unfold Scanner.left
      have := List.length_drop (i := sc.offset) (l := ow.head)
      split <;> (try split) <;> omega
    have hon := scanLoop_on (opts := { opts with extendable := !ow.exhausted }) (base := ow.head) (ow.head.length + 3) sc [] hv hd
      (boundary_le h.boundary)
    have hcalm : ow.exhausted = true → (scanTokens { opts with extendable := !ow.exhausted } ow.head sc).1 ≠ .err .Extend := by
      intro he
      refine scanLoop_calm ?_ _ _ _
      simp [he]
    rw [show scanLoop { opts with extendable := !ow.exhausted } ow.head (ow.head.length + 3) sc [] = (r, sc', out) from hs] at hon
    rw [hs] at hend hcalm
    obtain ⟨h1, h2⟩ := hon hr
    have h3 : r = .err .Extend → ow.exhausted = false := by
      intro h
      cases he : ow.exhausted
      · rfl
      · exact absurd h (hcalm he)
    have hdone : ow.exhausted = false → sc'.state ≠ .Done := fun he => h2 (by simp [he])
    cases r with
    | ok u =>
      refine ⟨⟨h.valid, hend.1, fun hd' => ?_⟩, (fun h => by cases h), h1, h3⟩
      refine ⟨?_, ?_⟩
      · cases he : ow.exhausted
        · exact absurd hd' (hdone he)
        · rfl
      · rcases hend.2 with ⟨-, h4, -⟩ | hfin
        · exact absurd hd' h4
        · generalize hS : (⟨sc', ow.head.drop sc'.offset, out⟩ : SS) = S at hfin
          have : ow.head.drop sc'.offset = S.buf := by rw [← hS]
          rw [this]
          cases hfin with
          | intro _ _ hb => exact hb
    | err e => exact ⟨⟨h.valid, hend.2.1, fun hd' => absurd hd' hend.2.2⟩, (fun h => by cases h), h1, h3⟩
    | panic => exact absurd rfl hr
    | diverge => exact hend.elim

theorem refresh_sound (h : Sound ow sc) (hx : ow.exhausted = false) :
    match ow.refresh size sc.offset with
    | (.ok _, ow') => Sound ow' { sc with offset := 0 } ∧ ∃ bytes, ow'.head = ow.head.drop sc.offset ++ bytes ∧
        bytesOf ow.source = bytes ++ bytesOf ow'.source ∧ (ow'.exhausted = true ↔ bytes = [])
    | (.err _, ow') => Sound ow' sc ∧ ow'.head = ow.head
    | (.panic, _) => False
    | (.diverge, _) => False := by
  have hle := boundary_le h.boundary
  have hd : sc.state ≠ .Done := fun hd => by
    have := (h.done hd).1
    rw [hx] at this
    cases this
  unfold Owned.refresh
  rw [if_neg (by omega)]
  have htake : match Source.take (size ow.tails sc.offset) ow.source with
      | (.ok bytes, s) => bytesOf ow.source = bytes ++ bytesOf s
      | (.err _, _) => True
      | _ => False := by
    generalize ow.source = src
    unfold Source.take
    cases src with
    | nil => rfl
    | cons b src =>
      obtain ⟨bytes, e⟩ := b
      simp only
      by_cases hc : size ow.tails sc.offset ≤ bytes.length
      · rw [if_pos hc]
        simp only [bytesOf, List.flatMap_cons, ← List.append_assoc, List.take_append_drop]
      · rw [if_neg hc]
        cases e with
        | none => simp [bytesOf]
        | some e => trivial
  generalize Source.take (size ow.tails sc.offset) ow.source = x at htake
  obtain ⟨x, s⟩ := x
  cases x with
  | ok bytes =>
    simp only
    by_cases hv : validUtf8 (ow.head.drop sc.offset ++ bytes) = true
    · rw [if_pos hv]
      refine ⟨⟨hv, rfl, fun h => absurd h hd⟩, bytes, rfl, htake, ?_⟩
      simp
    · rw [if_neg hv]
      exact ⟨⟨h.valid, h.boundary, fun h => absurd h hd⟩, rfl⟩
  | err e => exact ⟨⟨h.valid, h.boundary, fun h => absurd h hd⟩, rfl⟩
  | panic => exact htake
  | diverge => exact htake

theorem between_sound (h : Between errs size opts src ow sc) : Sound ow sc := by
  induction h with
  | start => exact ⟨rfl, rfl, fun h => by cases h⟩
  | scan _ h hr ih => exact (scanTokens_sound ih h hr).1
  | chunk _ h next ih =>
    obtain ⟨h1, -, -, h2⟩ := scanTokens_sound ih h (fun h => by cases h)
    have := refresh_sound (size := size) h1 (h2 rfl)
    rw [next] at this
    exact this.1
  | fails _ _ h next ih =>
    obtain ⟨h1, -, -, h2⟩ := scanTokens_sound ih h (fun h => by cases h)
    have := refresh_sound (size := size) h1 (h2 rfl)
    rw [next] at this
    exact this.1

/-- The reader stays in these states. -/
theorem ownedLoop_between : ∀ fuel (ow : Owned) (sc : Scanner) (out : List TokenEntry), Between true size opts src ow sc →
    (ownedLoop size opts fuel ow sc out).1 ≠ .panic →
    Between true size opts src (ownedLoop size opts fuel ow sc out).2.2.1 (ownedLoop size opts fuel ow sc out).2.2.2 := by
  intro fuel
  induction fuel with
  | zero => intro ow sc out h _; exact h
  | succ fuel ih =>
    intro ow sc out h
    rw [ownedLoop]
    split
    · next hs => exact fun _ => h.scan hs (fun h => by cases h)
    · next sc1 more hs =>
      split
      · next hr => exact ih _ _ _ (h.chunk hs hr)
      · next hr => exact fun _ => h.fails rfl hs hr
      · exact fun h => absurd rfl h
      · next hr =>
        obtain ⟨h1, -, -, h2⟩ := scanTokens_sound (between_sound h) hs (fun h => by cases h)
        have := refresh_sound (size := size) h1 (h2 rfl)
        rw [hr] at this
        exact this.elim
    · next hs => exact fun _ => h.scan hs (fun h => by cases h)
    · exact fun h => absurd rfl h
    · next hs => exact fun _ => h.scan hs (fun h => by cases h)

theorem take_reads {cap : Nat} (hc : 0 < cap) {src s : Source} {bytes : Str} (h : Source.take cap src = (.ok bytes, s)) :
    bytes = [] ∨ s.reads < src.reads := by
  unfold Source.take at h
  cases src with
  | nil => cases h; exact .inl rfl
  | cons b src =>
    obtain ⟨bs, e⟩ := b
    simp only at h
    by_cases hle : cap ≤ bs.length
    · rw [if_pos hle] at h
      cases h
      right
      simp only [Source.reads, List.map_cons, List.sum_cons, List.length_drop]
      omega
    · rw [if_neg hle] at h
      cases e with
      | none =>
        cases h
        right
        simp only [Source.reads, List.map_cons, List.sum_cons]
        omega
      | some e => cases h

theorem refresh_reads (hsize : ∀ a b, 0 < size a b) {ow' : Owned} {mark : Nat} (h : ow.refresh size mark = (.ok (), ow')) :
    ow'.exhausted = true ∨ ow'.source.reads < ow.source.reads := by
  unfold Owned.refresh at h
  split at h
  · cases h
  · cases ht : Source.take (size ow.tails mark) ow.source with
    | mk x s =>
    rw [ht] at h
    cases x with
    | ok bytes =>
      simp only at h
      split at h
      · cases h
        rcases take_reads (hsize _ _) ht with rfl | h
        · exact .inl rfl
        · exact .inr h
      · cases h
    | err e => cases h
    | panic => cases h
    | diverge => cases h

/-- Every call ends. -/
theorem ownedLoop_ends (hsize : ∀ a b, 0 < size a b) : ∀ fuel (ow : Owned) (sc : Scanner) (out : List TokenEntry), Sound ow sc →
    (ow.exhausted = true ∧ 1 ≤ fuel ∨ ow.source.reads + 2 ≤ fuel) → (ownedLoop size opts fuel ow sc out).1 ≠ .diverge := by
  intro fuel
  induction fuel with
  | zero => intro ow sc out _ h; omega
  | succ fuel ih =>
    intro ow sc out h hf
    rw [ownedLoop]
    split
    · exact fun h => by cases h
    · next sc1 more hs =>
      obtain ⟨h1, -, -, h2⟩ := scanTokens_sound h hs (fun h => by cases h)
      have he := h2 rfl
      have := refresh_sound (size := size) h1 he
      split
      · next ow' hr =>
        rw [hr] at this
        refine ih _ _ _ this.1 ?_
        rcases hf with ⟨hf, -⟩ | hf
        · rw [hf] at he; cases he
        · rcases refresh_reads hsize hr with h | h
          · exact .inl ⟨h, by omega⟩
          · exact .inr (by omega)
      · exact fun h => by cases h
      · exact fun h => by cases h
      · next hr => rw [hr] at this; exact this.elim
    · exact fun h => by cases h
    · exact fun h => by cases h
    · next hs => exact absurd rfl (scanTokens_sound h hs (fun h => by cases h)).2.1

theorem refresh_errors {mark : Nat} {e : ScanError} {ow' : Owned} : ow.refresh size mark ≠ (.err (.Scanner e), ow') := by
  unfold Owned.refresh
  intro h
  split at h
  · cases h
  · split at h
    · simp only at h
      split at h <;> cases h
    · next ht =>
      cases h
      unfold Source.take at ht
      split at ht
      · cases ht
      · split at ht
        · cases ht
        · split at ht <;> cases ht
    · cases h
    · cases h

/-- Without failures, the reader stays in the states without failures. -/
theorem ownedLoop_smooth : ∀ fuel (ow : Owned) (sc : Scanner) (out : List TokenEntry), Between false size opts src ow sc →
    ((ownedLoop size opts fuel ow sc out).1 = .ok () ∨ ∃ e, (ownedLoop size opts fuel ow sc out).1 = .err (.Scanner e)) →
    Between false size opts src (ownedLoop size opts fuel ow sc out).2.2.1 (ownedLoop size opts fuel ow sc out).2.2.2 := by
  intro fuel
  induction fuel with
  | zero => intro ow sc out h _; exact h
  | succ fuel ih =>
    intro ow sc out h
    rw [ownedLoop]
    split
    · next hs => exact fun _ => h.scan hs (fun h => by cases h)
    · next sc1 more hs =>
      split
      · next hr => exact ih _ _ _ (h.chunk hs hr)
      · next e ow' hr =>
        rintro (h | ⟨e, h⟩)
        · cases h
        · simp only at h
          cases h
          exact absurd hr refresh_errors
      · rintro (h | ⟨e, h⟩) <;> cases h
      · rintro (h | ⟨e, h⟩) <;> cases h
    · next hs => exact fun _ => h.scan hs (fun h => by cases h)
    · rintro (h | ⟨e, h⟩) <;> cases h
    · rintro (h | ⟨e, h⟩) <;> cases h

theorem between_conserved (h : Between false size opts src ow sc) :
    ∃ p, bytesOf src = p ++ ow.head.drop sc.offset ++ bytesOf ow.source := by
  generalize he : false = errs at h
  induction h with
  | start => exact ⟨[], rfl⟩
  | @scan ow sc sc' _ _ hB h hr ih =>
    obtain ⟨p, hp⟩ := ih
    obtain ⟨-, -, h1, -⟩ := scanTokens_sound (between_sound hB) h hr
    refine ⟨p ++ (ow.head.drop sc.offset).take (sc'.offset - sc.offset), ?_⟩
    rw [hp]
    congr 1
    rw [List.append_assoc]
    congr 1
    conv => lhs; rw [← List.take_append_drop (sc'.offset - sc.offset) (ow.head.drop sc.offset)]
    rw [List.drop_drop, show sc.offset + (sc'.offset - sc.offset) = sc'.offset by omega]
  | @chunk ow ow' sc sc' _ hB h next ih =>
    obtain ⟨p, hp⟩ := ih
    obtain ⟨h0, -, h1, h2⟩ := scanTokens_sound (between_sound hB) h (fun h => by cases h)
    have := refresh_sound (size := size) h0 (h2 rfl)
    rw [next] at this
    obtain ⟨-, bytes, h3, h4, -⟩ := this
    refine ⟨p ++ (ow.head.drop sc.offset).take (sc'.offset - sc.offset), ?_⟩
    rw [hp, h3, h4]
    have : ow.head.drop sc.offset = (ow.head.drop sc.offset).take (sc'.offset - sc.offset) ++ ow.head.drop sc'.offset := by
      conv => lhs; rw [← List.take_append_drop (sc'.offset - sc.offset) (ow.head.drop sc.offset)]
      rw [List.drop_drop, show sc.offset + (sc'.offset - sc.offset) = sc'.offset by omega]
    conv => lhs; rw [this]
    simp
  | fails h => rw [h] at he; cases he

theorem between_feeds (hsize : ∀ a b, 0 < size a b) {text : Str} (h : Between false size opts [(text, none)] ow sc) :
    Feeds ow.source (bytesOf ow.source) none ∧ (ow.exhausted = true → bytesOf ow.source = []) := by
  generalize he : false = errs at h
  induction h with
  | start => exact ⟨by simpa [bytesOf] using Feeds.all text, fun h => by cases h⟩
  | scan _ _ _ ih => exact ih
  | @chunk ow ow' sc sc' _ hB h next ih =>
    obtain ⟨h1, -⟩ := ih
    unfold Owned.refresh at next
    split at next
    · cases next
    · rcases h1.take (hsize ow.tails sc'.offset) with ⟨bytes, src', rem', h3, h4, h5, h6, -⟩ | ⟨e, s, h3, h4⟩
      · rw [h3] at next
        simp only at next
        split at next
        · cases next
          have : bytesOf src' = rem' := by cases h5 <;> simp [bytesOf]
          subst this
          exact ⟨h5, fun h => h6 (by simpa using h)⟩
        · cases next
      · cases h4
  | fails h => rw [h] at he; cases he

end Yary.Chunk
