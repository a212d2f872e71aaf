import Verif.Proof.Scan.JamQuoted
import Verif.Proof.Scan.JamPlain
import Verif.Proof.Scan.JamBlock
import Verif.Proof.Scan.FaultStep

/-! # Where the scanner panics: the steps -/

namespace Yary

open Spec

variable {opts : SFlags} {α β : Type} {W : SS → Prop} {s : SS}

/-! ### What never panics, and reads nothing -/

/-- It does not panic, and leaves the text alone. -/
def Still (m : Scan α) : Prop := ∀ s, (m s).1 ≠ .panic ∧ (m s).2.buf = s.buf

namespace Still

theorem bind {m : Scan α} {f : α → Scan β} (h : Still m) (hf : ∀ a, Still (f a)) : Still (m >>= f) := by
  intro s
  have h1 := h s
  simp only [Bind.bind, SO.bind]
  generalize m s = r at h1
  obtain ⟨o, s1⟩ := r
  cases o with
  | ok a =>
    obtain ⟨k1, k2⟩ := hf a s1
    exact ⟨k1, k2.trans h1.2⟩
  | err e => exact ⟨by simp, h1.2⟩
  | panic => exact absurd rfl h1.1
  | diverge => exact ⟨by simp, h1.2⟩

theorem get : Still Scan.get := fun _ => ⟨by simp [Scan.get, SO.get], rfl⟩
theorem pure (a : α) : Still (Pure.pure a : Scan α) := fun _ => ⟨by simp [Pure.pure, SO.pure], rfl⟩
theorem upd (f : Scanner → Scanner) : Still (Scan.upd f) := fun _ => ⟨by simp [Scan.upd, SO.modify], rfl⟩
theorem enqueue (t : MaybeToken) (r : Nat) : Still (Scan.enqueue t r) := fun _ => ⟨by simp [Scan.enqueue, SO.modify], rfl⟩
theorem fail (e : ScanError) : Still (SO.fail e : Scan α) := fun _ => ⟨by simp [SO.fail], rfl⟩
theorem push (t : Token) : Still (Scan.push t) := get.bind fun _ => enqueue _ _
theorem unroll (c : Option Nat) : Still (Scan.unrollIndent c) := fun _ => ⟨by simp [Scan.unrollIndent, SO.modify], rfl⟩
theorem takeKey : Still Scan.takeKey := get.bind fun _ => (upd _).bind fun _ => pure _

theorem popZero : Still Scan.popZeroIndent := by
  intro s
  refine ⟨by simp [Scan.popZeroIndent, SO.modify], ?_⟩
  simp only [Scan.popZeroIndent, SO.modify]
  repeat' split
  all_goals rfl

theorem ite {c : Prop} [Decidable c] {m m' : Scan α} (h : Still m) (h' : Still m') : Still (if c then m else m') := by
  split <;> assumption

theorem lift {x : Out ScanError α} (h : x ≠ .panic) : Still (SO.lift x : Scan α) := fun _ => ⟨h, rfl⟩

theorem rollIndent (mark line column : Nat) (map : Bool) : Still (Scan.rollIndent mark line column map) :=
  get.bind fun _ => ite (ite ((upd _).bind fun _ => enqueue _ _) (ite ((upd _).bind fun _ => enqueue _ _) (pure _))) (pure _)

theorem rollHere (map : Bool) : Still (Scan.rollHere map) := get.bind fun _ => rollIndent _ _ _ _

theorem removeKey : Still Scan.removeSavedKey := by
  refine takeKey.bind fun k => ?_
  cases k with
  | none => exact pure _
  | some k => exact ite (fail _) (pure _)

theorem saveKey : Still Scan.saveKey := get.bind fun _ => ite (removeKey.bind fun _ => upd _) (pure _)

theorem expireKey : Still Scan.expireKey := by
  refine get.bind fun s => ?_
  cases s.sc.key with
  | none => exact pure _
  | some k => exact ite (ite (fail _) (upd _)) (pure _)

theorem explicitKeyCheck : Still Scan.explicitKeyCheck := get.bind fun _ => ite (ite (fail _) (rollHere _)) (pure _)
theorem blockEntryCheck : Still Scan.blockEntryCheck := get.bind fun _ => ite (rollHere _) (fail _)
theorem valueBare : Still Scan.valueBare := get.bind fun _ => (get.bind fun _ => ite (ite (fail _) (rollHere _)) (pure _)).bind fun _ => upd _

theorem valueKey (k : Option KeySave) : Still (Scan.valueKey k) := by
  cases k with
  | none => exact valueBare
  | some k => exact ite ((rollIndent _ _ _ _).bind fun _ => (enqueue _ _).bind fun _ => upd _) valueBare

theorem streamEnd : Still Scan.fetchStreamEnd :=
  get.bind fun _ => ite (pure _) (ite ((unroll _).bind fun _ => removeKey.bind fun _ => (upd _).bind fun _ => push _) (pure _))

theorem buf {m : Scan α} {s s' : SS} {a : α} (h : Still m) (hs : m s = (.ok a, s')) : s'.buf = s.buf := by
  have := (h s).2
  rw [hs] at this
  exact this

end Still

/-! ### The reason of a panic -/

/-- A panic has the reason `W`. -/
def Breaks (W : SS → Prop) (m : Scan α) (s : SS) : Prop := ∀ s', m s = (.panic, s') → W s'

theorem Still.breaks {m : Scan α} (h : Still m) : Breaks W m s := fun s' hs => by
  have := (h s).1
  rw [hs] at this
  exact absurd rfl this

namespace Breaks

theorem bind {m : Scan α} {f : α → Scan β} (h : Breaks W m s) (hf : ∀ a s1, m s = (.ok a, s1) → Breaks W (f a) s1) : Breaks W (m >>= f) s := by
  intro s' hs
  simp only [Bind.bind, SO.bind] at hs
  generalize hm : m s = r at hs
  obtain ⟨o, s1⟩ := r
  cases o with
  | ok a => exact hf a s1 hm s' hs
  | err e1 => simp at hs
  | panic => simp only [Prod.mk.injEq, true_and] at hs; subst hs; exact h _ hm
  | diverge => simp at hs

theorem get {f : SS → Scan β} (hf : Breaks W (f s) s) : Breaks W (Scan.get >>= f) s := hf

/-- After what never panics, and reads nothing. -/
theorem still {m : Scan α} {f : α → Scan β} (h : Still m) (hf : ∀ a s1, m s = (.ok a, s1) → s1.buf = s.buf → Breaks W (f a) s1) : Breaks W (m >>= f) s :=
  h.breaks.bind fun a s1 h1 => hf a s1 h1 (h.buf h1)

theorem ite {c : Prop} [Decidable c] {m m' : Scan α} (h : c → Breaks W m s) (h' : ¬ c → Breaks W m' s) : Breaks W (if c then m else m') s := by
  split
  · exact h ‹_›
  · exact h' ‹_›

theorem sub {m : MStats} {f : Cur → Out ScanError α} {J : Prop} {Q : α → Prop} (h : Jams (f ⟨s.buf, m⟩) Q J) (hw : J → W s) : Breaks W (Scan.sub m f) s := by
  refine get fun s' hs => ?_
  simp only [SO.lift, Prod.mk.injEq] at hs
  obtain ⟨h1, rfl⟩ := hs
  exact hw (h.2 h1)

theorem commit {b : Str} {m : MStats} (hv : validUtf8 b = true) (hb : ∃ p, s.buf = p ++ b) : Breaks W (Scan.commit b m) s := by
  obtain ⟨p, hp⟩ := hb
  intro s' hs
  unfold Scan.commit at hs
  have hl : s.buf.length - b.length = p.length := by rw [hp]; simp
  rw [hl, if_pos (adv_to (c := ⟨s.buf, {}⟩) hp hv)] at hs
  simp at hs

/-- The characters of a sign are no wide ones. -/
theorem advance {n : Nat} {p t : Str} (hb : s.buf = p ++ t) (hn : n = p.length) (hp : Ascii p) (hv : validUtf8 s.buf = true) : Breaks W (Scan.advance n) s := by
  intro s' hs
  unfold Scan.advance at hs
  have ht : validUtf8 t = true := validUtf8_drop_ascii hp (hb ▸ hv)
  have := (adv_jams (J := False) (c := ⟨s.buf, s.sc.stats⟩) hb hn ht).2
  generalize Cur.adv ⟨s.buf, s.sc.stats⟩ n = c at hs this
  cases c with
  | panic => exact (this rfl).elim
  | _ => simp at hs

theorem advance1 {b : Byte} {t : Str} (hb : s.buf = b :: t) (h8 : b < 0x80) (hv : validUtf8 s.buf = true) : Breaks W (Scan.advance 1) s :=
  advance (p := [b]) hb rfl (.cons h8 .nil) hv

theorem finish {t : MaybeToken} {c : Cur} (hv : validUtf8 c.buf = true) (hb : ∃ p, s.buf = p ++ c.buf) : Breaks W (Scan.finish t c) s :=
  still .saveKey fun _ s1 _ h1 => still (.upd _) fun _ s2 _ h2 => get ((commit hv (by rw [h2, h1]; exact hb)).bind fun _ _ _ => get (Still.enqueue _ _).breaks)

end Breaks

theorem dispatch_start {x : Context} {m : MStats} {s : Str} (h : Scan.dispatch x m.column s = .plain) : PlainStart x.isBlock ⟨s, m⟩ :=
  Closed.dispatch_plain h m rfl

/-- The text makes the scanner panic, in the state before it. -/
def JamHere (opts : SFlags) (s s' : SS) : Prop :=
  Jam opts.lazy s.sc.context.flow (s'.sc.context.level.getD 0) (levelSucc s'.sc.context.level) s.sc.stats s.buf

theorem block_beq {x : Context} : x.isBlock = (x.flow == 0) := by
  unfold Context.isBlock
  cases x.flow <;> simp

/-- The panics of the choices. -/
theorem run_breaks (hv : validUtf8 s.buf = true) :
    Breaks (JamHere opts s) (Scan.run opts (Scan.dispatch s.sc.context s.sc.stats.column s.buf)) s := by
  have hd := dispatch_says s.sc.context s.sc.stats.column s.buf
  have hp : Scan.dispatch s.sc.context s.sc.stats.column s.buf = .plain → PlainStart s.sc.context.isBlock ⟨s.buf, s.sc.stats⟩ := dispatch_start
  generalize Scan.dispatch s.sc.context s.sc.stats.column s.buf = f at hd hp
  cases f with
  | directive =>
    obtain ⟨h1, t, ht⟩ := hd
    refine (Breaks.sub (J := DirectiveJam s.buf) (Q := fun r => validUtf8 r.2.buf = true) (by rw [ht] at hv ⊢; exact directive_jams t hv)
      fun h => .directive h1 h).bind fun p s1 h => ?_
    have hx := sub_ok h
    clear h
    obtain ⟨h, rfl⟩ := hx
    rw [ht] at h hv
    have hr := (directive_jams t hv).1 _ h
    obtain ⟨q, hq⟩ := ((directiveToken_sat (P := True) (.inl trivial) (.inl trivial)).of_ok h).1.suffix
    exact .still (.unroll _) fun _ s2 _ h2 => .still .removeKey fun _ s3 _ h3 => .still (.upd _) fun _ s4 _ h4 =>
      .get ((Breaks.commit hr ⟨q, by rw [h4, h3, h2, ht]; exact hq⟩).bind fun _ _ _ => (Still.push _).breaks)
  | marker start =>
    obtain ⟨-, t, ht, -⟩ := hd
    refine .still (.unroll _) fun _ s1 _ h1 => .still .removeKey fun _ s2 _ h2 => .still (.upd _) fun _ s3 _ h3 =>
      (Breaks.advance (p := if start then bytes! "---" else bytes! "...") (t := t) ?_ ?_ ?_ ?_).bind fun _ _ _ => (Still.push _).breaks
    · rw [h3, h2, h1, ht]
    · cases start <;> rfl
    · cases start <;> (unfold Ascii; decide)
    · rw [h3, h2, h1]; exact hv
  | flowStart map =>
    obtain ⟨t, ht⟩ := hd
    refine .still (.upd _) fun _ s1 _ h1 => (Breaks.advance1 (h1.trans ht) (by cases map <;> decide) (by rw [h1]; exact hv)).bind fun _ _ _ =>
      .still (.push _) fun _ _ _ _ => .still .saveKey fun _ _ _ _ => (Still.upd _).breaks
  | flowEnd map =>
    obtain ⟨t, ht⟩ := hd
    refine .still .removeKey fun _ s1 _ h1 => .get (.still (.lift ?_) fun _ s2 _ h2 => .still (.upd _) fun _ s3 _ h3 =>
      (Breaks.advance1 (h3.trans (h2.trans (h1.trans ht))) (by cases map <;> decide) (by rw [h3, h2, h1]; exact hv)).bind fun _ _ _ => (Still.push _).breaks)
    unfold Context.flowDecrement
    split <;> simp
  | flowEntry =>
    obtain ⟨t, ht⟩ := hd
    exact .still .removeKey fun _ s1 _ h1 => .still (.upd _) fun _ s2 _ h2 =>
      (Breaks.advance1 (h2.trans (h1.trans ht)) (by decide) (by rw [h2, h1]; exact hv)).bind fun _ _ _ => (Still.push _).breaks
  | blockEntry =>
    obtain ⟨t, ht, -⟩ := hd
    exact .still .blockEntryCheck fun _ s1 _ h1 => .still (.upd _) fun _ s2 _ h2 => .still .removeKey fun _ s3 _ h3 => .still (.upd _) fun _ s4 _ h4 =>
      (Breaks.advance1 (h4.trans (h3.trans (h2.trans (h1.trans ht)))) (by decide) (by rw [h4, h3, h2, h1]; exact hv)).bind fun _ _ _ => (Still.push _).breaks
  | explicitKey =>
    obtain ⟨t, ht, -⟩ := hd
    exact .get (.still .explicitKeyCheck fun _ s1 _ h1 => .still .removeKey fun _ s2 _ h2 => .still (.upd _) fun _ s3 _ h3 =>
      (Breaks.advance1 (h3.trans (h2.trans (h1.trans ht))) (by decide) (by rw [h3, h2, h1]; exact hv)).bind fun _ _ _ => (Still.push _).breaks)
  | value =>
    obtain ⟨t, ht, -⟩ := hd
    exact .still .takeKey fun _ s1 _ h1 => .still (.valueKey _) fun _ s2 _ h2 =>
      (Breaks.advance1 (h2.trans (h1.trans ht)) (by decide) (by rw [h2, h1]; exact hv)).bind fun _ _ _ => (Still.push _).breaks
  | anchor =>
    obtain ⟨b, t, ht, hb, hb'⟩ : ∃ b t, s.buf = b :: t ∧ b < 0x80 ∧ NoBrk b := by
      obtain ⟨t, ht | ht⟩ := hd
      · exact ⟨_, _, ht, by decide, by decide⟩
      · exact ⟨_, _, ht, by decide, by decide⟩
    refine .get ((Breaks.sub (J := False) (Q := fun r => validUtf8 r.2.buf = true) (by rw [ht] at hv ⊢; exact scanAnchor_jams hv hb) fun h => h.elim).bind fun p s1 h => ?_)
    have hx := sub_ok h
    clear h
    obtain ⟨h, rfl⟩ := hx
    generalize startsWith s.buf b! '*' = al at h
    rw [ht] at h hv
    have hr := (scanAnchor_jams (J := False) hv hb).1 _ h
    obtain ⟨q, hq⟩ := ((scanAnchor_sat (P := True) (.inl trivial) hb').of_ok h).1.suffix
    exact .finish hr ⟨q, by rw [ht]; exact hq⟩
  | tag =>
    obtain ⟨t, ht⟩ := hd
    refine (Breaks.sub (J := TagJam s.buf) (Q := fun r => validUtf8 r.2.buf = true) (by rw [ht] at hv ⊢; exact scanNodeTag_jams t hv) fun h => .tag h).bind fun p s1 h => ?_
    have hx := sub_ok h
    clear h
    obtain ⟨h, rfl⟩ := hx
    rw [ht] at h hv
    have hr := (scanNodeTag_jams t hv).1 _ h
    obtain ⟨q, hq⟩ := ((scanNodeTag_sat (P := True) (.inl trivial) (.inl trivial)).of_ok h).1.suffix
    exact .finish hr ⟨q, by rw [ht]; exact hq⟩
  | block fold =>
    obtain ⟨h0, t, ht⟩ := hd
    rw [flow_bne] at h0
    have h0 : s.sc.context.flow = 0 := by simpa [bne] using h0
    have h8 : (if fold then b! '>' else b! '|') < 0x80 := by cases fold <;> decide
    refine .still .removeKey fun _ s1 e1 h1 => .still (.upd _) fun _ s2 e2 h2 => .get ?_
    have hb : s2.buf = (if fold then b! '>' else b! '|') :: t := h2.trans (h1.trans ht)
    have hv2 : validUtf8 ((if fold then b! '>' else b! '|') :: t) = true := by rw [← ht]; exact hv
    refine (Breaks.sub (J := BlockJam opts.lazy (s2.sc.context.level.getD 0) t) (Q := fun r => validUtf8 r.2.buf = true) (by rw [hb]; exact scanBlock_jams hv2 h8)
      fun h => ?_).bind fun p s3 h => ?_
    · unfold JamHere
      rw [ht]
      exact .block h0 h
    · have hx := sub_ok h
      clear h
      obtain ⟨h, rfl⟩ := hx
      rw [hb] at h
      have hr := (scanBlock_jams hv2 h8).1 _ h
      have hnb : isBreak ((if fold then b! '>' else b! '|') :: t) = false := by cases fold <;> rfl
      obtain ⟨q, hq⟩ : ∃ q, (if fold then b! '>' else b! '|') :: t = q ++ p.2.buf := by
        unfold scanBlock at h
        split at h
        · obtain ⟨r, h1, h2⟩ := Out.bind_eq_ok.1 h
          cases h2
          exact ((scanBlockLazy_sat (P := True) (.inl trivial) (by simp) hnb).of_ok h1).1.moves.suffix
        · obtain ⟨r, h1, h2⟩ := Out.bind_eq_ok.1 h
          cases h2
          exact ((scanBlockEager_sat (P := True) trivial (by simp) hnb).of_ok h1).1.moves.suffix
      exact (Breaks.commit hr ⟨q, by rw [hb]; exact hq⟩).bind fun _ _ _ => (Still.enqueue _ _).breaks
  | quoted =>
    obtain ⟨t, ht⟩ := hd
    have ht : s.buf = quoteMark (startsWith s.buf 0x27) :: t := by rcases ht with ht | ht <;> rw [ht] <;> rfl
    generalize hsg : startsWith s.buf 0x27 = single at ht
    have h8 : quoteMark single < 0x80 := by cases single <;> decide
    have hvt : validUtf8 t = true := valid_tail (ht ▸ hv) h8
    have hj : Jams (scanFlow opts single ⟨quoteMark single :: t, {}⟩) (fun r => validUtf8 r.2.buf = true) (opts.lazy = false ∧ QuotedJam single t) := by
      unfold scanFlow
      split
      · exact (scanFlowLazy_jams hvt).bind fun _ h => .ok h
      · rename_i hl
        exact Jams.bind ((scanFlowEager_jams hvt).mono (fun _ h => h) fun h => ⟨by simpa using hl, h⟩) fun _ h => .ok h
    refine .get ((Breaks.sub (J := opts.lazy = false ∧ QuotedJam single t) (Q := fun r => validUtf8 r.2.buf = true) (by rw [hsg, ht]; exact hj) ?_).bind fun p s1 h => ?_)
    · rintro ⟨hl, h⟩
      unfold JamHere
      rw [ht]
      exact .quoted hl h
    · have hx := sub_ok h
      clear h
      obtain ⟨h, rfl⟩ := hx
      rw [hsg, ht] at h
      have hr := hj.1 _ h
      have hnb : isBreak (quoteMark single :: t) = false := by cases single <;> rfl
      obtain ⟨q, hq⟩ : ∃ q, quoteMark single :: t = q ++ p.2.buf := by
        unfold scanFlow at h
        split at h
        · obtain ⟨r, h1, h2⟩ := Out.bind_eq_ok.1 h
          cases h2
          exact ((scanFlowLazy_sat (P := True) h8 (by cases single <;> decide) (ht ▸ hv)).of_ok h1).1.suffix
        · obtain ⟨r, h1, h2⟩ := Out.bind_eq_ok.1 h
          cases h2
          exact ((scanFlowEager_sat (P := True) (.inl trivial) (.inl trivial) hnb).of_ok h1).1.suffix
      exact .finish hr ⟨q, by rw [ht]; exact hq⟩
  | plain =>
    have hst := hp rfl
    have hj : Jams (scanPlain opts (levelSucc s.sc.context.level) s.sc.context.isBlock ⟨s.buf, s.sc.stats⟩) (fun r => validUtf8 r.2.buf = true)
        (PlainJam opts.lazy s.sc.context.isBlock (levelSucc s.sc.context.level) s.sc.stats s.buf) := by
      unfold scanPlain
      cases opts.lazy with
      | true => exact (scanPlainLazy_jams hv hst).bind fun _ h => .ok h
      | false => exact (scanPlainEager_jams hv hst).bind fun _ h => .ok h
    refine .get ((Breaks.sub hj fun h => .plain (by rw [← flow_bne]; exact hd) (by rw [← block_beq]; exact h)).bind fun p s1 h => ?_)
    · have hx := sub_ok h
      clear h
      obtain ⟨h, rfl⟩ := hx
      have hr := hj.1 _ h
      obtain ⟨q, hq⟩ : ∃ q, s.buf = q ++ p.2.buf := by
        unfold scanPlain at h
        split at h
        · obtain ⟨r, h1, h2⟩ := Out.bind_eq_ok.1 h
          cases h2
          exact ((scanPlainLazy_sat (P := True) (.inl trivial) hst).of_ok h1).1.suffix
        · obtain ⟨r, h1, h2⟩ := Out.bind_eq_ok.1 h
          cases h2
          exact ((scanPlainEager_sat (P := True) (.inl trivial) hst).of_ok h1).1.suffix
      exact .still .saveKey fun _ s2 _ h2 => .still (.upd _) fun _ s3 _ h3 =>
        (Breaks.commit hr ⟨q, by rw [h3, h2]; exact hq⟩).bind fun _ _ _ => (Still.enqueue _ _).breaks
  | unknown => exact (Still.fail _).breaks

/-- The panics of a step. -/
theorem step_breaks {s s' : SS} (hB : Before s) (hst : s.sc.state = .Stream) (hs : Scan.scanNextToken opts s = (.panic, s')) :
    WideComment s.buf ∨
      ∃ s1 n p, s.buf = p ++ s1.buf ∧ Skips true s.buf n s1.buf ∧ s1.sc.stats = posAfter s.sc.stats p ∧ s1.sc.context.flow = s.sc.context.flow ∧ JamHere opts s1 s' := by
  refine Breaks.get (W := fun s' => WideComment s.buf ∨
      ∃ s1 n p, s.buf = p ++ s1.buf ∧ Skips true s.buf n s1.buf ∧ s1.sc.stats = posAfter s.sc.stats p ∧ s1.sc.context.flow = s.sc.context.flow ∧ JamHere opts s1 s') ?_ s' hs
  rw [hst]
  simp only [show (StreamState.Stream == StreamState.Start) = false from rfl, Bool.false_eq_true, ↓reduceIte]
  refine Breaks.bind ?_ fun _ s1 h1 => ?_
  · have hw := eatWs_jams (opts := opts) (comments := true) (c := ⟨s.buf, {}⟩) hB.valid
    refine Breaks.bind ((Breaks.sub hw fun h => .inl h.2).bind fun c s1 h => ?_) fun _ _ _ =>
      (Still.expireKey.bind fun _ => Still.get.bind fun _ => (Still.unroll _).bind fun _ => Still.popZero).breaks
    have hx := sub_ok h
    clear h
    obtain ⟨h, rfl⟩ := hx
    have hr := hw.1 _ h
    obtain ⟨n, hn⟩ := eatWs_par _ h
    exact .still (.upd _) fun _ s2 _ h2 => .get (.commit hr (by rw [h2]; exact hn.suffix))
  · obtain ⟨n, g1, g2, g3⟩ := prepare_place h1
    obtain ⟨hB1, hR, hst1, -, -, -⟩ := prepare_ok hB h1
    obtain ⟨p, hp1, hp2⟩ := hR.posAfter
    simp only at hp1 hp2
    refine .get (.ite (fun _ => Still.streamEnd.breaks) fun _ => ?_)
    refine .still (.lift ?_) fun _ s2 h2 _ => ?_
    · exact fun h => (cache_jams (J := False) (opts := opts) 4 s1.buf).2 h
    · have : s2 = s1 := by
        simp only [SO.lift, Prod.mk.injEq] at h2
        exact h2.2.symm
      subst this
      exact fun s' h => .inr ⟨s2, n, p, hp1, g1, hp2, g3, run_breaks hB1.valid s' h⟩

end Yary
