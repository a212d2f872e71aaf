import Verif.Model.Scan.Scanner

/-! # Below the first block collection the indentation is zero -/

namespace Yary

/-- The indentation when all block collections are closed. -/
def Bottom : List IndentEntry → Nat → Prop
  | [], i => i = 0
  | e :: es, _ => Bottom es e.indent

/-- It is zero. -/
def Grounded (x : Context) : Prop := Bottom x.indents x.indent

/-- It stays so. -/
def Grounds {α : Type} (m : Scan α) : Prop := ∀ s, Grounded s.sc.context → Grounded (m s).2.sc.context

namespace Grounds

variable {α β : Type}

theorem bind {m : Scan α} {f : α → Scan β} (h : Grounds m) (hf : ∀ a, Grounds (f a)) : Grounds (m >>= f) := by
  intro s hs
  have h1 := h s hs
  show Grounded (SO.bind m f s).2.sc.context
  unfold SO.bind
  generalize m s = r at h1 ⊢
  obtain ⟨o, s1⟩ := r
  cases o with
  | ok a => exact hf a s1 h1
  | _ => exact h1

theorem get {f : SS → Scan β} (hf : ∀ s, Grounded s.sc.context → Grounds (f s)) : Grounds (Scan.get >>= f) := fun s hs => hf s hs s hs

theorem pure (a : α) : Grounds (Pure.pure a : Scan α) := fun _ h => h
theorem fail (e : ScanError) : Grounds (SO.fail e : Scan α) := fun _ h => h
theorem lift (o : Out ScanError α) : Grounds (SO.lift o : Scan α) := fun _ h => by cases o <;> exact h

theorem given (a : α) {f : α → Scan β} (h : Grounds (f a)) : Grounds (SO.lift (.ok a) >>= f) := h

theorem upd {f : Scanner → Scanner} (h : ∀ sc, Grounded sc.context → Grounded (f sc).context) : Grounds (Scan.upd f) := fun s hs => h s.sc hs

theorem same {f : Scanner → Scanner} (h : ∀ sc, (f sc).context = sc.context) : Grounds (Scan.upd f) := upd fun sc hs => by rw [h]; exact hs

theorem enqueue (t : MaybeToken) (r : Nat) : Grounds (Scan.enqueue t r) := fun _ h => h
theorem push (t : Token) : Grounds (Scan.push t) := fun _ h => h
theorem advance (n : Nat) : Grounds (Scan.advance n) := fun s h => by
  unfold Scan.advance
  split <;> exact h
theorem commit (b : Str) (m : MStats) : Grounds (Scan.commit b m) := fun s h => by
  unfold Scan.commit
  split <;> exact h
theorem sub (m : MStats) (f : Cur → Out ScanError α) : Grounds (Scan.sub m f) := get fun _ _ => lift _

theorem ite {c : Prop} [Decidable c] {m m' : Scan α} (h : Grounds m) (h' : Grounds m') : Grounds (if c then m else m') := by
  split <;> assumption

theorem takeKey : Grounds Scan.takeKey := get fun _ _ => bind (same fun _ => rfl) fun _ => pure _

theorem removeKey : Grounds Scan.removeSavedKey := bind takeKey fun k => by
  cases k with
  | none => exact pure _
  | some k => exact ite (fail _) (pure _)

theorem saveKey : Grounds Scan.saveKey := get fun _ _ => ite (bind removeKey fun _ => same fun _ => rfl) (pure _)

theorem popLoop_bottom (c : Option Nat) : ∀ (es : List IndentEntry) (i : Nat), Bottom es i → Bottom (popLoop c es i).1 (popLoop c es i).2.1
  | [], i, h => h
  | e :: es, i, h => by
    unfold popLoop
    split
    · exact popLoop_bottom c es e.indent h
    · exact h

theorem unroll (c : Option Nat) : Grounds (Scan.unrollIndent c) := fun s h => by
  show Grounded (s.sc.context.indentDecrement c).1
  unfold Context.indentDecrement
  split
  · exact popLoop_bottom c _ _ h
  · exact h

theorem rollIndent (a b c : Nat) (map : Bool) : Grounds (Scan.rollIndent a b c map) := by
  refine get fun s hs => ?_
  have h1 : Grounded (s.sc.context.indentIncrement c b map) := hs
  have h2 : Grounded (Scan.flagZero (s.sc.context.indentIncrement c b map)) := hs
  exact ite (ite (bind (upd fun _ _ => h1) fun _ => enqueue _ _) (ite (bind (upd fun _ _ => h2) fun _ => enqueue _ _) (pure _))) (pure _)

theorem rollHere (map : Bool) : Grounds (Scan.rollHere map) := get fun _ _ => rollIndent _ _ _ _

theorem finish (t : MaybeToken) (c : Cur) : Grounds (Scan.finish t c) :=
  bind saveKey fun _ => bind (same fun _ => rfl) fun _ => get fun _ _ => bind (commit _ _) fun _ => get fun _ _ => enqueue _ _

theorem valueBare : Grounds Scan.valueBare :=
  get fun _ _ => bind (get fun _ _ => ite (ite (fail _) (rollHere _)) (pure _)) fun _ => same fun _ => rfl

theorem run (opts : SFlags) (f : Scan.Fetch) : Grounds (Scan.run opts f) := by
  cases f with
  | directive =>
    exact bind (sub _ _) fun _ => bind (unroll _) fun _ => bind removeKey fun _ => bind (same fun _ => rfl) fun _ => get fun _ _ =>
      bind (commit _ _) fun _ => push _
  | marker start => exact bind (unroll _) fun _ => bind removeKey fun _ => bind (same fun _ => rfl) fun _ => bind (advance _) fun _ => push _
  | flowStart map =>
    exact bind (upd fun _ h => h) fun _ => bind (advance _) fun _ => bind (push _) fun _ => bind saveKey fun _ => same fun _ => rfl
  | flowEnd map =>
    refine bind removeKey fun _ => get fun s hs => ?_
    show Grounds (SO.lift s.sc.context.flowDecrement >>= _)
    unfold Context.flowDecrement
    split
    · exact fun _ h => h
    · refine given _ (bind (upd fun _ _ => ?_) fun _ => bind (advance _) fun _ => push _)
      exact hs
  | flowEntry => exact bind removeKey fun _ => bind (same fun _ => rfl) fun _ => bind (advance _) fun _ => push _
  | blockEntry =>
    refine bind (get fun _ _ => ite (rollHere _) (fail _)) fun _ => bind (upd fun sc h => ?_) fun _ => bind removeKey fun _ => bind (same fun _ => rfl) fun _ =>
      bind (advance _) fun _ => push _
    show Grounded (Scan.touchZero sc.stats sc.context)
    unfold Scan.touchZero
    unfold Grounded at h ⊢
    split
    · exact h
    · next hi =>
      rw [hi] at h
      split
      · exact h
      · rw [hi]; exact h
  | explicitKey =>
    exact get fun _ _ => bind (get fun _ _ => ite (ite (fail _) (rollHere _)) (pure _)) fun _ => bind removeKey fun _ => bind (same fun _ => rfl) fun _ =>
      bind (advance _) fun _ => push _
  | value =>
    refine bind takeKey fun k => bind ?_ fun _ => bind (advance _) fun _ => push _
    cases k with
    | none => exact valueBare
    | some k => exact ite (bind (rollIndent _ _ _ _) fun _ => bind (enqueue _ _) fun _ => same fun _ => rfl) valueBare
  | anchor => exact get fun _ _ => bind (sub _ _) fun _ => finish _ _
  | tag => exact bind (sub _ _) fun _ => finish _ _
  | block fold =>
    exact bind removeKey fun _ => bind (same fun _ => rfl) fun _ => get fun _ _ => bind (sub _ _) fun _ => bind (commit _ _) fun _ => enqueue _ _
  | quoted => exact get fun _ _ => bind (sub _ _) fun _ => finish _ _
  | plain =>
    exact get fun _ _ => bind (sub _ _) fun _ => bind saveKey fun _ => bind (same fun _ => rfl) fun _ => bind (commit _ _) fun _ => enqueue _ _
  | unknown => exact fail _

theorem fetchNext (opts : SFlags) : Grounds (Scan.fetchNext opts) :=
  get fun _ _ => ite (get fun _ _ => ite (pure _) (ite (bind (unroll _) fun _ => bind removeKey fun _ => bind (same fun _ => rfl) fun _ => push _) (pure _)))
    (bind (lift _) fun _ => run _ _)

theorem prepare (opts : SFlags) : Grounds (Scan.prepare opts) := by
  refine bind (bind (sub _ _) fun _ => bind (same fun _ => rfl) fun _ => get fun _ _ => commit _ _) fun _ => bind (get fun s _ => ?_) fun _ => get fun _ _ =>
    bind (unroll _) fun _ => ?_
  · cases s.sc.key with
    | none => exact pure _
    | some k => exact ite (ite (fail _) (same fun _ => rfl)) (pure _)
  · intro s h
    unfold Scan.popZeroIndent SO.modify
    dsimp only
    split
    · exact h
    · next hi =>
      split
      · unfold Grounded at h ⊢
        rw [hi] at h
        exact h
      · exact h

theorem step (opts : SFlags) : Grounds (Scan.scanNextToken opts) :=
  get fun _ _ => ite (bind (same fun _ => rfl) fun _ => push _) (bind (prepare _) fun _ => fetchNext _)

end Grounds

variable {opts : SFlags}

theorem loop_grounded {base : Str} : ∀ (f : Nat) (sc : Scanner) (out : List TokenEntry), Grounded sc.context → Grounded (scanLoop opts base f sc out).2.1.context
  | 0, _, _, h => h
  | f + 1, sc, out, h => by
    unfold scanLoop
    split
    · split
      · have h1 := Grounds.step opts ⟨sc, base.drop sc.offset, out⟩ h
        generalize Scan.scanNextToken opts ⟨sc, base.drop sc.offset, out⟩ = x at h1 ⊢
        obtain ⟨o, s⟩ := x
        cases o with
        | ok u => exact loop_grounded f _ _ h1
        | err e =>
          dsimp only
          split <;> exact h1
        | panic => exact h1
        | diverge => exact h1
      · exact loop_grounded f _ _ h
    · exact h

theorem drive_grounded {base : Str} {sc : Scanner} (h : Grounded sc.context) : Grounded (borrowDrive opts base sc).2.2.context := by
  have h1 := loop_grounded (opts := { opts with extendable := false }) (base := base) (base.length + 3) sc [] h
  unfold borrowDrive scanTokens
  generalize scanLoop { opts with extendable := false } base (base.length + 3) sc [] = x at h1 ⊢
  obtain ⟨o, s, l⟩ := x
  cases o <;> exact h1

end Yary
