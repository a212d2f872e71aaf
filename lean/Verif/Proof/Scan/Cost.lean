import Verif.Proof.Scan.Texts
import Verif.Proof.Scan.Keys

/-! # How many tokens a text has -/

namespace Yary

open Spec
open Closed (Safe Progress Finished)

namespace Cost

variable {α β : Type} {opts : SFlags}

/-- The tokens pushed, and those the scanner already owes: the ends of its block collections and the
key of a possible mapping. -/
def owed (s : SS) : Nat := s.out.length + s.sc.context.indents.length + (if s.sc.key.isSome then 1 else 0)

/-- `x` adds at most `k`. -/
def Adds (k : Nat) (x : Scan α) : Prop := ∀ s a s', x s = (.ok a, s') → owed s' ≤ owed s + k

theorem Adds.mono {k k' : Nat} {x : Scan α} (h : Adds k x) (hk : k ≤ k') : Adds k' x :=
  fun s a s' he => Nat.le_trans (h s a s' he) (by omega)

theorem Adds.bind {k k' : Nat} {x : Scan α} {f : α → Scan β} (h : Adds k x) (h' : ∀ a, Adds k' (f a)) : Adds (k + k') (x >>= f) := by
  intro s b s2 he
  have he : SO.bind x f s = (.ok b, s2) := he
  unfold SO.bind at he
  generalize hx : x s = r at he
  obtain ⟨o, s1⟩ := r
  cases o with
  | ok a =>
    have h1 := h _ _ _ hx
    have h2 := h' _ _ _ _ he
    omega
  | err e => cases he
  | panic => cases he
  | diverge => cases he

theorem Adds.pure (a : α) : Adds 0 (pure a : Scan α) := by
  intro s a s' he
  cases he
  exact Nat.le_refl _

theorem Adds.get : Adds 0 Scan.get := by
  intro s a s' he
  cases he
  exact Nat.le_refl _

theorem Adds.fail {k : Nat} {e : ScanError} : Adds k (SO.fail e : Scan α) := by intro s a s' he; cases he

theorem Adds.lift (o : Out ScanError α) : Adds 0 (SO.lift o : Scan α) := by
  intro s a s' he
  unfold SO.lift at he
  cases he
  exact Nat.le_refl _

theorem Adds.upd {f : Scanner → Scanner} (h : ∀ sc, (f sc).context.indents.length ≤ sc.context.indents.length ∧ ((f sc).key.isSome → sc.key.isSome)) :
    Adds 0 (Scan.upd f) := by
  intro s a s' he
  cases he
  have := h s.sc
  unfold owed
  dsimp only
  split
  · rw [if_pos (this.2 ‹_›)]; omega
  · omega

theorem Adds.enqueue (t : MaybeToken) (n : Nat) : Adds 1 (Scan.enqueue t n) := by
  intro s a s' he
  cases he
  unfold owed
  simp
  omega

theorem Adds.push (t : Token) : Adds 1 (Scan.push t) := (Adds.get.bind fun _ => Adds.enqueue _ _).mono (by omega)

theorem Adds.advance (n : Nat) : Adds 0 (Scan.advance n) := by
  intro s a s' he
  unfold Scan.advance at he
  split at he <;> cases he
  exact Nat.le_refl _

theorem Adds.commit (buf : Str) (st : MStats) : Adds 0 (Scan.commit buf st) := by
  intro s a s' he
  unfold Scan.commit at he
  split at he <;> cases he
  exact Nat.le_refl _

theorem Adds.sub (st : MStats) (f : Cur → Out ScanError α) : Adds 0 (Scan.sub st f) := Adds.get.bind fun _ => Adds.lift _

theorem Adds.ite {k : Nat} {c : Prop} [Decidable c] {x y : Scan α} (h : Adds k x) (h' : Adds k y) : Adds k (if c then x else y) := by
  split
  · exact h
  · exact h'

theorem Adds.takeKey : Adds 0 Scan.takeKey :=
  Adds.get.bind fun _ => (Adds.upd (f := fun sc => { sc with key := none }) fun _ => ⟨Nat.le_refl _, fun h => by cases h⟩).bind fun _ => .pure _

theorem Adds.removeSavedKey : Adds 0 Scan.removeSavedKey := by
  refine Adds.takeKey.bind (k' := 0) fun k => ?_
  cases k with
  | none => exact .pure _
  | some k => exact .ite .fail (.pure _)

theorem Adds.saveKey : Adds 1 Scan.saveKey := by
  refine (Adds.get.bind fun s => Adds.ite (k := 1) ((Adds.removeSavedKey.bind (k' := 1) fun _ => ?_).mono (by omega)) ((Adds.pure _).mono (by omega))).mono (by omega)
  intro s a s' he
  cases he
  unfold owed
  simp

theorem popLoop_length (column : Option Nat) : ∀ (l : List IndentEntry) (i : Nat), (popLoop column l i).1.length + (popLoop column l i).2.2 = l.length := by
  intro l
  induction l with
  | nil => intro i; rfl
  | cons e l ih =>
    intro i
    unfold popLoop
    split
    · have := ih e.indent
      dsimp only
      rw [List.length_cons]
      omega
    · rfl

theorem Adds.unrollIndent (column : Option Nat) : Adds 0 (Scan.unrollIndent column) := by
  intro s a s' he
  have he : s' = (let r := s.sc.context.indentDecrement column
    { s with
      sc := { s.sc with context := r.1 }
      out := s.out ++ List.replicate r.2 ⟨.Token .BlockEnd, s.sc.stats.read⟩ }) := by
    cases he; rfl
  subst he
  have := popLoop_length column s.sc.context.indents s.sc.context.indent
  have hr : (s.sc.context.indentDecrement column).1.indents.length + (s.sc.context.indentDecrement column).2 = s.sc.context.indents.length := by
    unfold Context.indentDecrement
    split
    · exact this
    · rfl
  simp only [owed, List.length_append, List.length_replicate]
  omega

theorem Adds.popZeroIndent : Adds 0 Scan.popZeroIndent := by
  intro s a s' he
  unfold Scan.popZeroIndent SO.modify at he
  simp only [Prod.mk.injEq] at he
  obtain ⟨-, rfl⟩ := he
  split
  · exact Nat.le_refl _
  · split
    · simp_all [owed]
      omega
    · exact Nat.le_refl _

theorem flagZero_length (x : Context) : (Scan.flagZero x).indents.length = x.indents.length := by
  unfold Scan.flagZero
  split <;> simp_all

theorem touchZero_length (st : MStats) (x : Context) : (Scan.touchZero st x).indents.length = x.indents.length := by
  unfold Scan.touchZero
  split
  · rfl
  · split <;> simp_all

theorem Adds.rollIndent (mark line column : Nat) (map : Bool) : Adds 2 (Scan.rollIndent mark line column map) := by
  intro s a s' he
  have he : (if s.sc.context.isBlock then
      if levelLt s.sc.context.level column then do
        Scan.upd fun sc => { sc with context := s.sc.context.indentIncrement column line map }
        Scan.enqueue (.Token (if map then .BlockMappingStart else .BlockSequenceStart)) mark
      else if !map && s.sc.context.level == some column && Scan.lastIsMap s.sc.context then do
        Scan.upd fun sc => { sc with context := Scan.flagZero (s.sc.context.indentIncrement column line map) }
        Scan.enqueue (.Token (if map then .BlockMappingStart else .BlockSequenceStart)) mark
      else Pure.pure ()
    else Pure.pure () : Scan Unit) s = (.ok a, s') := he
  have hx := flagZero_length (s.sc.context.indentIncrement column line map)
  split at he
  · split at he
    · cases he
      simp [owed, Context.indentIncrement]
      omega
    · split at he
      · cases he
        simp [owed, hx]
        simp [Context.indentIncrement]
        omega
      · cases he
        omega
  · cases he
    omega

theorem Adds.rollHere (map : Bool) : Adds 2 (Scan.rollHere map) := (Adds.get.bind fun _ => Adds.rollIndent _ _ _ _).mono (by omega)

theorem Adds.allow {f : Scanner → Bool} : Adds 0 (Scan.upd fun sc => { sc with simpleKeyAllowed := f sc }) :=
  Adds.upd fun _ => ⟨Nat.le_refl _, id⟩

theorem Adds.finish (t : MaybeToken) (c : Cur) : Adds 2 (Scan.finish t c) :=
  (Adds.saveKey.bind fun _ => Adds.allow.bind fun _ => Adds.get.bind fun _ => (Adds.commit _ _).bind fun _ => Adds.get.bind fun _ => Adds.enqueue _ _).mono (by omega)

theorem Adds.fetchValue : Adds 3 Scan.fetchValue := by
  intro s a s' he
  have he : (do
    Scan.valueKey s.sc.key
    Scan.advance 1
    Scan.push .Value : Scan Unit) { s with sc := { s.sc with key := none } } = (.ok a, s') := he
  have hroll : Adds 2 (do
      let s ← Scan.get
      if s.sc.context.isBlock then
        if !s.sc.simpleKeyAllowed then SO.fail .InvalidValue
        else Scan.rollHere true
      else Pure.pure () : Scan Unit) :=
    (Adds.get.bind fun _ => Adds.ite (k := 2) (Adds.ite .fail (Adds.rollHere _)) ((Adds.pure _).mono (by omega))).mono (by omega)
  have hbare : Adds 2 Scan.valueBare := (Adds.get.bind fun _ => hroll.bind fun _ => Adds.allow).mono (by omega)
  have hsaved : ∀ k, Adds 3 (Scan.valueSaved k) := fun k => ((Adds.rollIndent _ _ _ _).bind fun _ => (Adds.enqueue _ _).bind fun _ => Adds.allow).mono (by omega)
  have hend : Adds 1 (do Scan.advance 1; Scan.push .Value : Scan Unit) := ((Adds.advance _).bind fun _ => Adds.push _).mono (by omega)
  have h0 : owed { s with sc := { s.sc with key := none } } + (if s.sc.key.isSome then 1 else 0) = owed s := by simp [owed]
  generalize ({ s with sc := { s.sc with key := none } } : SS) = t at he h0
  cases hk : s.sc.key with
  | none =>
    rw [hk] at he h0
    have := (hbare.bind fun _ => hend) _ _ _ he
    simp at h0
    omega
  | some k =>
    rw [hk] at he h0
    have hv : Adds 3 (Scan.valueKey (some k)) := .ite (hsaved k) (hbare.mono (by omega))
    have := (hv.bind fun _ => hend) _ _ _ he
    simp at h0
    omega

theorem Adds.run (f : Scan.Fetch) : Adds 3 (Scan.run opts f) := by
  cases f with
  | directive =>
    exact ((Adds.sub _ _).bind fun _ => (Adds.unrollIndent _).bind fun _ => Adds.removeSavedKey.bind fun _ => Adds.allow.bind fun _ =>
      Adds.get.bind fun _ => (Adds.commit _ _).bind fun _ => Adds.push _).mono (by omega)
  | marker start =>
    exact ((Adds.unrollIndent _).bind fun _ => Adds.removeSavedKey.bind fun _ => Adds.allow.bind fun _ => (Adds.advance _).bind fun _ => Adds.push _).mono (by omega)
  | flowStart map =>
    exact ((Adds.upd (f := fun sc => { sc with context := sc.context.flowIncrement }) fun _ => ⟨Nat.le_refl _, id⟩).bind fun _ => (Adds.advance _).bind fun _ =>
      (Adds.push _).bind fun _ => Adds.saveKey.bind fun _ => Adds.allow).mono (by omega)
  | flowEnd map =>
    refine (Adds.removeSavedKey.bind (k' := 1) fun _ => ?_).mono (by omega)
    intro s a s' he
    have he : SO.bind (SO.lift s.sc.context.flowDecrement) (fun x => do
      Scan.upd fun sc => { sc with context := x, simpleKeyAllowed := false }
      Scan.advance 1
      Scan.push (if map then .FlowMappingEnd else .FlowSequenceEnd)) s = (.ok a, s') := he
    unfold SO.bind SO.lift at he
    dsimp only at he
    cases hx : s.sc.context.flowDecrement with
    | ok x =>
      rw [hx] at he
      have hl : x.indents = s.sc.context.indents := by
        unfold Context.flowDecrement at hx
        split at hx <;> cases hx
        rfl
      have := ((Adds.advance _).bind fun _ => Adds.push _) { s with sc := { s.sc with context := x, simpleKeyAllowed := false } } _ _ he
      unfold owed at this ⊢
      simp only [hl] at this
      omega
    | err e => rw [hx] at he; cases he
    | panic => rw [hx] at he; cases he
    | diverge => rw [hx] at he; cases he
  | flowEntry => exact (Adds.removeSavedKey.bind fun _ => Adds.allow.bind fun _ => (Adds.advance _).bind fun _ => Adds.push _).mono (by omega)
  | blockEntry =>
    refine ((Adds.get.bind fun _ => Adds.ite (k := 2) (Adds.rollHere _) .fail).bind fun _ => ?_).mono (show (0 + 2) + (0 + (0 + (0 + (0 + 1)))) ≤ 3 by omega)
    exact (Adds.upd (f := fun sc => { sc with context := Scan.touchZero sc.stats sc.context }) fun sc =>
      ⟨Nat.le_of_eq (touchZero_length sc.stats sc.context), id⟩).bind fun _ => Adds.removeSavedKey.bind fun _ => Adds.allow.bind fun _ => (Adds.advance _).bind fun _ => Adds.push _
  | explicitKey =>
    have hc : Adds 2 Scan.explicitKeyCheck := (Adds.get.bind fun _ => Adds.ite (k := 2) (Adds.ite .fail (Adds.rollHere _)) ((Adds.pure _).mono (by omega))).mono (by omega)
    exact (Adds.get.bind fun _ => hc.bind fun _ => Adds.removeSavedKey.bind fun _ => Adds.allow.bind fun _ => (Adds.advance _).bind fun _ => Adds.push _).mono (by omega)
  | value => exact Adds.fetchValue
  | anchor => exact (Adds.get.bind fun _ => (Adds.sub _ _).bind fun _ => Adds.finish _ _).mono (by omega)
  | tag => exact ((Adds.sub _ _).bind fun _ => Adds.finish _ _).mono (by omega)
  | block fold =>
    exact (Adds.removeSavedKey.bind fun _ => Adds.allow.bind fun _ => Adds.get.bind fun _ => (Adds.sub _ _).bind fun _ => (Adds.commit _ _).bind fun _ => Adds.enqueue _ _).mono (by omega)
  | quoted => exact (Adds.get.bind fun _ => (Adds.sub _ _).bind fun _ => Adds.finish _ _).mono (by omega)
  | plain =>
    exact (Adds.get.bind fun _ => (Adds.sub _ _).bind fun _ => Adds.saveKey.bind fun _ => Adds.allow.bind fun _ => (Adds.commit _ _).bind fun _ => Adds.enqueue _ _).mono (by omega)
  | unknown => exact .fail

theorem Adds.prepare : Adds 0 (Scan.prepare opts) := by
  have hw : Adds 0 (Scan.eatWhitespace opts) :=
    (Adds.sub _ _).bind fun _ => Adds.allow.bind fun _ => Adds.get.bind fun _ => Adds.commit _ _
  have he : Adds 0 Scan.expireKey := by
    intro s a s' he
    have he : (match s.sc.key with
      | none => Pure.pure ()
      | some k =>
        if k.possible.allowed && (k.stats.lines < s.sc.stats.lines || k.stats.read + 1024 < s.sc.stats.read) then
          if k.possible.required then SO.fail .MissingValue
          else Scan.upd fun sc => { sc with key := some { k with possible := .No } }
        else Pure.pure () : Scan Unit) s = (.ok a, s') := he
    cases hk : s.sc.key with
    | none => rw [hk] at he; cases he; omega
    | some k =>
      rw [hk] at he
      dsimp only at he
      split at he
      · split at he
        · cases he
        · cases he
          simp [owed, hk]
      · cases he; omega
  exact hw.bind fun _ => he.bind fun _ => Adds.get.bind fun _ => (Adds.unrollIndent _).bind fun _ => Adds.popZeroIndent

theorem Adds.fetchStreamEnd : Adds 1 Scan.fetchStreamEnd :=
  (Adds.get.bind fun _ => Adds.ite (k := 1) ((Adds.pure _).mono (by omega)) (Adds.ite
    (((Adds.unrollIndent _).bind fun _ => Adds.removeSavedKey.bind fun _ =>
      (Adds.upd (f := fun sc => { sc with state := .Done }) fun _ => ⟨Nat.le_refl _, id⟩).bind fun _ => Adds.push _).mono (by omega))
    ((Adds.pure _).mono (by omega)))).mono (by omega)

theorem Adds.fetchStreamStart : Adds 1 Scan.fetchStreamStart :=
  ((Adds.upd (f := fun sc => { sc with simpleKeyAllowed := true, state := .Stream }) fun _ => ⟨Nat.le_refl _, id⟩).bind fun _ => Adds.push _).mono (by omega)

/-- What is left, in tokens. -/
def due (sc : Scanner) (n : Nat) : Nat := 3 * n + (if sc.state = .Start then 2 else if sc.state = .Done then 0 else 1)

/-- A step owes no more than before. -/
theorem step {s s' : SS} (hv : validUtf8 s.buf = true) (hd : s.sc.state ≠ .Done) (h : Scan.scanNextToken opts s = (.ok (), s')) :
    owed s' + due s'.sc s'.buf.length ≤ owed s + due s.sc s.buf.length := by
  have hp := Holds.of_ok (closed_plainly.scanNextToken (P := True) (opts := opts) (.inl trivial) (s := s) hv hd) h
  by_cases hst : s.sc.state = .Start
  · rcases hp with ⟨-, ⟨h1, h2, h3⟩ | ⟨h1, -⟩⟩ | ⟨h1, -⟩
    · unfold Scan.scanNextToken at h
      have h : (if s.sc.state == .Start then Scan.fetchStreamStart else do Scan.prepare opts; Scan.fetchNext opts) s = (.ok (), s') := h
      rw [hst] at h
      have := Adds.fetchStreamStart _ _ _ h
      unfold due
      rw [h1, h2, h3]
      simp
      omega
    · exact absurd hst h1
    · exact absurd hst h1
  · have h : (if s.sc.state == .Start then Scan.fetchStreamStart else do Scan.prepare opts; Scan.fetchNext opts) s = (.ok (), s') := h
    rw [if_neg (by simpa using hst)] at h
    have hnext : Adds 3 (Scan.fetchNext opts) :=
      (Adds.get.bind fun _ => Adds.ite (k := 3) (Adds.fetchStreamEnd.mono (by omega)) (((Adds.lift _).bind fun _ => Adds.run _).mono (by omega))).mono (by omega)
    rcases hp with ⟨-, ⟨h1, -⟩ | ⟨-, h2, h3⟩⟩ | ⟨-, h2⟩
    · exact absurd h1 hst
    · have := (Adds.prepare.bind fun _ => hnext) _ _ _ h
      unfold due
      rw [h2]
      omega
    · have hdone : s'.sc.state = .Done := by
        obtain @⟨s1, h3, h4, h5, h6, h7⟩ := h2
        rfl
      have h : SO.bind (Scan.prepare opts) (fun _ => Scan.fetchNext opts) s = (.ok (), s') := h
      unfold SO.bind at h
      generalize hx : Scan.prepare opts s = r at h
      obtain ⟨o, s1⟩ := r
      cases o with
      | ok a =>
        have h0 := Adds.prepare _ _ _ hx
        have hs1 := Holds.of_ok (closed_plainly.prepare (P := True) (opts := opts) (.inl trivial) (s := s) hv) hx
        obtain ⟨hv1, hr, hs1, hf⟩ := hs1
        have h : (if s1.buf.isEmpty || s1.sc.state == .Done then Scan.fetchStreamEnd else do
          SO.lift (cache opts 4 s1.buf)
          Scan.run opts (Scan.dispatch s1.sc.context s1.sc.stats.column s1.buf)) s1 = (.ok (), s') := h
        have hl := hr.length_le
        dsimp only at hl
        split at h
        · have h1 := Adds.fetchStreamEnd _ _ _ h
          have hb : s'.buf = [] := by
            obtain @⟨s2, h3, h4, h5, h6, h7⟩ := h2
            exact h5
          unfold due
          rw [hdone, hb]
          simp [hst, hd]
          omega
        · have h : SO.bind (SO.lift (cache opts 4 s1.buf)) (fun _ => Scan.run opts (Scan.dispatch s1.sc.context s1.sc.stats.column s1.buf)) s1 = (.ok (), s') := h
          unfold SO.bind SO.lift at h
          dsimp only at h
          cases hc : cache opts 4 s1.buf with
          | ok u =>
            rw [hc] at h
            have := Holds.of_ok (closed_plainly.run (P := True) (opts := opts) (.inl trivial) hv1 hf) h
            have h4 := this.state
            rw [hdone, hs1] at h4
            exact absurd h4.symm hd
          | err e => rw [hc] at h; cases h
          | panic => rw [hc] at h; cases h
          | diverge => rw [hc] at h; cases h
      | err e => cases h
      | panic => cases h
      | diverge => cases h

theorem step_length {s s' : SS} (hv : validUtf8 s.buf = true) (hd : s.sc.state ≠ .Done) (h : Scan.scanNextToken opts s = (.ok (), s')) :
    s'.buf.length ≤ s.buf.length := by
  have hp := Holds.of_ok (closed_plainly.scanNextToken (P := True) (opts := opts) (.inl trivial) (s := s) hv hd) h
  rcases hp with ⟨-, ⟨-, -, h3⟩ | ⟨-, -, h3⟩⟩ | ⟨-, h2⟩
  · rw [h3]; exact Nat.le_refl _
  · omega
  · have hb : s'.buf = [] := by
      obtain @⟨s2, h3, h4, h5, h6, h7⟩ := h2
      exact h5
    rw [hb]
    simp

/-- What a scanner owes on a text. -/
def debt (base : Str) (sc : Scanner) : Nat :=
  sc.context.indents.length + (if sc.key.isSome then 1 else 0) + due sc (base.drop sc.offset).length

theorem loop {base : Str} (hv : validUtf8 base = true) : ∀ fuel (sc sc' : Scanner) (out out' : List TokenEntry),
    scanLoop opts base fuel sc out = (.ok (), sc', out') → out'.length + debt base sc' ≤ out.length + debt base sc := by
  intro fuel
  induction fuel with
  | zero => intro sc sc' out out' h; cases h
  | succ fuel ih =>
    intro sc sc' out out' h
    rw [scanLoop] at h
    split at h
    · next hgo =>
      have hd : sc.state ≠ .Done := by
        intro hd
        simp [hd] at hgo
      split at h
      · next hb =>
        have hvb := validUtf8_drop hv hb
        cases hs : Scan.scanNextToken opts ⟨sc, base.drop sc.offset, out⟩ with
        | mk o s =>
        rw [hs] at h
        cases o with
        | ok u =>
          have h1 := ih _ _ _ _ h
          have h2 := step hvb hd hs
          have h3 := step_length hvb hd hs
          simp only [List.length_drop] at h3
          have h4 : (base.drop (base.length - s.buf.length)).length = s.buf.length := by
            rw [List.length_drop]; omega
          unfold debt at h1 ⊢
          unfold owed at h2
          simp only at h1 h2
          rw [h4] at h1
          unfold due at h1 h2 ⊢
          simp only at h1 h2 ⊢
          omega
        | err e =>
          simp only at h
          split at h <;> cases h
        | panic => cases h
        | diverge => cases h
      · exact ih _ _ _ _ h
    · cases h
      exact Nat.le_refl _

/-- The tokens of a text, handed out or not, and what the scanner still owes. -/
def Within (base : Str) (sc : Scanner) (D : List TokenEntry) : Prop := D.length + debt base sc ≤ 3 * base.length + 2

theorem within_drive {base : Str} (hv : validUtf8 base = true) (sc : Scanner) (D : List TokenEntry) (o : Out ReaderError Unit) (b : List TokenEntry)
    (sc' : Scanner) (hJ : Within base sc D) (hd : borrowDrive opts base sc = (o, b, sc')) (ho : o = .ok ()) : Within base sc' (D ++ deliver b) := by
  subst ho
  unfold borrowDrive scanTokens at hd
  generalize hr : scanLoop { opts with extendable := false } base (base.length + 3) sc [] = r at hd
  obtain ⟨o, sc1, out⟩ := r
  cases o with
  | ok u =>
    cases hd
    have := loop hv _ _ _ _ _ hr
    have hp := (deliver_stable b).perm.length_eq
    unfold Within at *
    rw [List.length_append, hp]
    simp only [List.length_nil] at this
    omega
  | err e => cases hd
  | panic => cases hd
  | diverge => cases hd

theorem handed_le {text : List Char} {ops : List ROp} (h : AllOk (history opts text ops)) :
    (handed (history opts text ops)).length ≤ 3 * (utf8 text).length + 2 := by
  have hv : validUtf8 (utf8 text) = true := (validUtf8_iff _).2 ⟨text, rfl⟩
  obtain ⟨D, h1, h2⟩ := reader_keeps (drive := borrowDrive opts (utf8 text)) (K := fun o => o = .ok ()) (J := Within (utf8 text)) (src := {})
    (within_drive hv) (by simp [Within, debt, due]) ops (fun x hx => by obtain ⟨r, hr⟩ := h x hx; rw [hr]; rfl)
  have := h2.length_le
  unfold Within at h1
  exact Nat.le_trans this (by omega)

end Cost

end Yary
