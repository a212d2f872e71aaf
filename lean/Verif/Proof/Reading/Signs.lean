import Verif.Proof.Reading.Close

/-! # The indicators of block collections -/

namespace Yary.Reading

open Spec

variable {opts : SFlags} {base : Str}

/-- The token a block collection begins with. -/
def startTok (map : Bool) : Token := if map then .BlockMappingStart else .BlockSequenceStart

theorem roll_push {t : Str} {al : Bool} {key : Option KeySave} {cxt : Context} {out : List TokenEntry} {c : Nat} {map zero : Bool} (mark line : Nat)
    (hu : Under cxt c zero) (hm : zero = true → map = false) :
    Scan.rollIndent mark line c map (st base t al key cxt out) =
      (.ok (), st base t al key (inner cxt c line map zero) (out ++ [⟨.Token (startTok map), mark⟩])) := by
  unfold Scan.rollIndent
  rw [bind_run (m := Scan.get) (a := st base t al key cxt out) (s1 := st base t al key cxt out) rfl]
  have hh := hu.here
  cases zero with
  | false =>
    simp only [Bool.false_eq_true, ↓reduceIte] at hh
    show (if cxt.isBlock = true then (if levelLt cxt.level c = true then _ else _) else pure () : Scan Unit) _ = _
    rw [if_pos hu.block, if_pos hh]
    rfl
  | true =>
    simp only [↓reduceIte] at hh
    obtain ⟨h1, h2⟩ := hh
    rw [hm rfl]
    show (if cxt.isBlock = true then (if levelLt cxt.level c = true then _ else (if (!false && cxt.level == some c && Scan.lastIsMap cxt) = true then _ else _)) else pure () : Scan Unit) _ = _
    rw [if_pos hu.block, if_neg (by rw [h1]; simp [levelLt]), if_pos (by rw [h1, h2]; simp)]
    rfl

theorem roll_stay {t : Str} {al : Bool} {key : Option KeySave} {cxt : Context} {out : List TokenEntry} {c : Nat} {map zero : Bool} (mark line l : Nat)
    (hb : cxt.isBlock = true) :
    Scan.rollIndent mark line c map (st base t al key (inner cxt c l map zero) out) = (.ok (), st base t al key (inner cxt c l map zero) out) := by
  unfold Scan.rollIndent
  rw [bind_run (m := Scan.get) (a := st base t al key (inner cxt c l map zero) out) (s1 := st base t al key (inner cxt c l map zero) out) rfl]
  show (if (inner cxt c l map zero).isBlock = true then (if levelLt (inner cxt c l map zero).level c = true then _ else
    (if (!map && (inner cxt c l map zero).level == some c && Scan.lastIsMap (inner cxt c l map zero)) = true then _ else _)) else pure () : Scan Unit) _ = _
  rw [if_pos (show (inner cxt c l map zero).isBlock = true from hb), if_neg (by simp [inner, Context.level, levelLt]), if_neg (by cases map <;> simp [inner, Scan.lastIsMap])]
  rfl

/-- Before an indicator of a block collection in column `c`: outside of it, or inside. -/
def Outer (cxt : Context) (c : Nat) (map zero first : Bool) (C : Context) (line : Nat) : Prop :=
  if first then C = cxt else C = inner cxt c line map zero

/-- What is pushed when a block collection begins. -/
def lead (map first : Bool) (mark : Nat) : List TokenEntry := if first then [⟨.Token (startTok map), mark⟩] else []

theorem roll_run {t : Str} {al : Bool} {key : Option KeySave} {cxt C : Context} {out : List TokenEntry} {c l : Nat} {map zero first : Bool} (mark line : Nat)
    (hu : Under cxt c zero) (hm : zero = true → map = false) (hC : Outer cxt c map zero first C l) :
    Scan.rollIndent mark line c map (st base t al key C out) =
      (.ok (), st base t al key (inner cxt c (if first then line else l) map zero) (out ++ lead map first mark)) := by
  cases first with
  | true =>
    simp only [Outer, ↓reduceIte] at hC
    subst hC
    exact roll_push mark line hu hm
  | false =>
    simp only [Outer, Bool.false_eq_true, ↓reduceIte] at hC
    subst hC
    simp only [lead, Bool.false_eq_true, ↓reduceIte, List.append_nil]
    exact roll_stay mark line l hu.block

theorem Outer.block {cxt C : Context} {c l : Nat} {map zero first : Bool} (hu : Under cxt c zero) (hC : Outer cxt c map zero first C l) : C.isBlock = true := by
  cases first with
  | true =>
    simp only [Outer, ↓reduceIte] at hC
    subst hC
    exact hu.block
  | false =>
    simp only [Outer, Bool.false_eq_true, ↓reduceIte] at hC
    subst hC
    exact hu.block

/-- The line of an entry. -/
def touched (cxt : Context) (c l line : Nat) : Nat := if cxt.indent == c && l < line then line else l

theorem touch_run {cxt : Context} {c l : Nat} {map zero : Bool} {m : MStats} (hc : m.column = c) :
    Scan.touchZero m (inner cxt c l map zero) = inner cxt c (touched cxt c l m.lines) map zero := by
  subst hc
  unfold Scan.touchZero touched
  simp only [inner]
  split
  · rfl
  · rfl

theorem here_run {s : Str} {al : Bool} {key : Option KeySave} {C : Context} {out : List TokenEntry} (map : Bool) :
    Scan.rollHere map (st base s al key C out) = Scan.rollIndent (place base s).read (lineOf base s) (columnOf base s) map (st base s al key C out) := rfl

/-- `-`. -/
theorem dash_fetch (hx : opts.extendable = false) (hA : Ascii base) {u : Str} {key : Option KeySave} {cxt C : Context} {c l : Nat} {zero first : Bool}
    {out : List TokenEntry} (hs : On base (b! '-' :: u)) (hw : EndsHere u) (hk : Loose key) (hu : Under cxt c zero) (hC : Outer cxt c false zero first C l)
    (hc : columnOf base (b! '-' :: u) = c) :
    Scan.fetchNext opts (st base (b! '-' :: u) true key C out) =
      (.ok (), st base u true none (inner cxt c (touched cxt c (if first then lineOf base (b! '-' :: u) else l) (lineOf base (b! '-' :: u))) false zero)
        (out ++ lead false first (place base (b! '-' :: u)).read ++ [⟨.Token .BlockEntry, (place base u).read⟩])) := by
  have hz := isWhiteSpaceZ_iff.2 hw
  have hd : ∀ n, Scan.dispatch C n (b! '-' :: u) = .blockEntry := by
    intro n
    have hm : startsMarker (b! '-' :: u) = false := by
      cases u with
      | nil => rfl
      | cons a w =>
        cases w with
        | nil => simp [startsMarker]
        | cons d w =>
          rw [show (b! '-' :: a :: d :: w) = ([b! '-', a, d] ++ w) from rfl]
          by_cases ha : a = b! '-'
          · subst ha
            simp [isWhiteSpaceZ, isBlank, startsWith, isBreak] at hz
          · simp [startsMarker, ha]
    unfold Scan.dispatch
    simp [startsWith, hm, hz]
  rw [fetchNext_run hx (by simp), hd]
  simp only [Scan.run, Scan.fetchBlockEntry]
  have h1 : Scan.blockEntryCheck (st base (b! '-' :: u) true key C out) =
      (.ok (), st base (b! '-' :: u) true key (inner cxt c (if first then lineOf base (b! '-' :: u) else l) false zero) (out ++ lead false first (place base (b! '-' :: u)).read)) := by
    unfold Scan.blockEntryCheck
    rw [bind_run (m := Scan.get) (a := st base (b! '-' :: u) true key C out) (s1 := st base (b! '-' :: u) true key C out) rfl]
    show (if (C.isBlock && true) = true then Scan.rollHere false else _ : Scan Unit) _ = _
    rw [if_pos (by rw [hC.block hu]; rfl), here_run, hc]
    exact roll_run _ _ hu (fun _ => rfl) hC
  rw [bind_run h1]
  have h2 : Scan.upd (fun sc => { sc with context := Scan.touchZero sc.stats sc.context })
      (st base (b! '-' :: u) true key (inner cxt c (if first then lineOf base (b! '-' :: u) else l) false zero) (out ++ lead false first (place base (b! '-' :: u)).read)) =
      (.ok (), st base (b! '-' :: u) true key (inner cxt c (touched cxt c (if first then lineOf base (b! '-' :: u) else l) (lineOf base (b! '-' :: u))) false zero)
        (out ++ lead false first (place base (b! '-' :: u)).read)) := by
    have := touch_run (cxt := cxt) (c := c) (l := if first then lineOf base (b! '-' :: u) else l) (map := false) (zero := zero) (m := place base (b! '-' :: u)) hc
    show (Out.ok (), st base (b! '-' :: u) true key (Scan.touchZero (place base (b! '-' :: u)) (inner cxt c (if first then lineOf base (b! '-' :: u) else l) false zero)) (out ++ lead false first (place base (b! '-' :: u)).read)) = _
    rw [this]
    rfl
  rw [bind_run h2, bind_run (removeKey_run hk), bind_run (allow_st true)]
  rw [bind_run (advance_st hA hs (not_break (by decide))).2.2.2]
  exact push_st _

/-- `?` in the block context. -/
theorem query_block (hx : opts.extendable = false) (hA : Ascii base) {u : Str} {key : Option KeySave} {cxt C : Context} {c l : Nat} {first : Bool}
    {out : List TokenEntry} (hs : On base (b! '?' :: u)) (hw : EndsHere u) (hk : Loose key) (hu : Under cxt c false) (hC : Outer cxt c true false first C l)
    (hc : columnOf base (b! '?' :: u) = c) :
    Scan.fetchNext opts (st base (b! '?' :: u) true key C out) =
      (.ok (), st base u true none (inner cxt c (if first then lineOf base (b! '?' :: u) else l) true false)
        (out ++ lead true first (place base (b! '?' :: u)).read ++ [⟨.Token .Key, (place base u).read⟩])) := by
  have hz := isWhiteSpaceZ_iff.2 hw
  have hd : ∀ n, Scan.dispatch C n (b! '?' :: u) = .explicitKey := by
    intro n
    unfold Scan.dispatch
    simp [startsWith, startsMarker, hz]
  rw [fetchNext_run hx (by simp), hd]
  simp only [Scan.run, Scan.fetchExplicitKey]
  rw [bind_run (m := Scan.get) (a := st base (b! '?' :: u) true key C out) (s1 := st base (b! '?' :: u) true key C out) rfl]
  have h1 : Scan.explicitKeyCheck (st base (b! '?' :: u) true key C out) =
      (.ok (), st base (b! '?' :: u) true key (inner cxt c (if first then lineOf base (b! '?' :: u) else l) true false) (out ++ lead true first (place base (b! '?' :: u)).read)) := by
    unfold Scan.explicitKeyCheck
    rw [bind_run (m := Scan.get) (a := st base (b! '?' :: u) true key C out) (s1 := st base (b! '?' :: u) true key C out) rfl]
    show (if C.isBlock = true then Scan.rollHere true else _ : Scan Unit) _ = _
    rw [if_pos (hC.block hu), here_run, hc]
    exact roll_run _ _ hu (by simp) hC
  rw [bind_run h1, bind_run (removeKey_run hk)]
  have hal : Scan.upd (fun sc => { sc with simpleKeyAllowed := (st base (b! '?' :: u) true key C out).sc.context.isBlock })
      (st base (b! '?' :: u) true none (inner cxt c (if first then lineOf base (b! '?' :: u) else l) true false) (out ++ lead true first (place base (b! '?' :: u)).read)) =
      (.ok (), st base (b! '?' :: u) true none (inner cxt c (if first then lineOf base (b! '?' :: u) else l) true false) (out ++ lead true first (place base (b! '?' :: u)).read)) := by
    rw [show (st base (b! '?' :: u) true key C out).sc.context.isBlock = true from hC.block hu]
    rfl
  rw [bind_run hal]
  rw [bind_run (advance_st hA hs (not_break (by decide))).2.2.2]
  exact push_st _

/-- `:` after a key, in the block context. -/
theorem value_block (hx : opts.extendable = false) (hA : Ascii base) {s u : Str} {al d : Bool} {cxt C : Context} {c l : Nat} {first : Bool}
    {out : List TokenEntry} (hs : On base (b! ':' :: u)) (hw : EndsHere u) (hu : Under cxt c false) (hC : Outer cxt c true false first C l)
    (hc : columnOf base s = c) :
    Scan.fetchNext opts (st base (b! ':' :: u) al (some (.new (place base s) d)) C out) =
      (.ok (), st base u false none (inner cxt c (if first then lineOf base s else l) true false)
        (out ++ lead true first (place base s).read ++ [⟨.Token .Key, (place base s).read⟩] ++ [⟨.Token .Value, (place base u).read⟩])) := by
  rw [fetchNext_run hx (by simp), dispatch_value (fun _ => hw)]
  simp only [Scan.run, Scan.fetchValue]
  rw [bind_run takeKey_run]
  have hv : Scan.valueKey (some (.new (place base s) d)) (st base (b! ':' :: u) al none C out) =
      (.ok (), st base (b! ':' :: u) false none (inner cxt c (if first then lineOf base s else l) true false)
        (out ++ lead true first (place base s).read ++ [⟨.Token .Key, (place base s).read⟩])) := by
    have : (KeySave.new (place base s) d).possible.allowed = true := by cases d <;> rfl
    simp only [Scan.valueKey, this, ↓reduceIte, Scan.valueSaved]
    have hr : Scan.rollIndent (KeySave.new (place base s) d).stats.read (KeySave.new (place base s) d).stats.lines (KeySave.new (place base s) d).stats.column true
        (st base (b! ':' :: u) al none C out) = (.ok (), st base (b! ':' :: u) al none (inner cxt c (if first then lineOf base s else l) true false) (out ++ lead true first (place base s).read)) := by
      show Scan.rollIndent (place base s).read (lineOf base s) (columnOf base s) true _ = _
      rw [hc]
      exact roll_run _ _ hu (by simp) hC
    rw [bind_run hr]
    rfl
  rw [bind_run hv]
  rw [bind_run (advance_st hA hs (not_break (by decide))).2.2.2]
  exact push_st _

/-- `:` without a key, in the block context. -/
theorem bare_block (hx : opts.extendable = false) (hA : Ascii base) {u : Str} {key : Option KeySave} {cxt : Context} {c l : Nat}
    {out : List TokenEntry} (hs : On base (b! ':' :: u)) (hw : EndsHere u) (hk : Idle key) (hb : cxt.isBlock = true) (hc : columnOf base (b! ':' :: u) = c) :
    Scan.fetchNext opts (st base (b! ':' :: u) true key (inner cxt c l true false) out) =
      (.ok (), st base u true none (inner cxt c l true false) (out ++ [⟨.Token .Value, (place base u).read⟩])) := by
  rw [fetchNext_run hx (by simp), dispatch_value (fun _ => hw)]
  simp only [Scan.run, Scan.fetchValue]
  rw [bind_run takeKey_run, valueKey_idle hk]
  have hbi : (inner cxt c l true false).isBlock = true := hb
  have hv : Scan.valueBare (st base (b! ':' :: u) true none (inner cxt c l true false) out) = (.ok (), st base (b! ':' :: u) true none (inner cxt c l true false) out) := by
    unfold Scan.valueBare
    rw [bind_run (m := Scan.get) (a := st base (b! ':' :: u) true none (inner cxt c l true false) out) (s1 := st base (b! ':' :: u) true none (inner cxt c l true false) out) rfl]
    have hcc : Scan.valueCheck (st base (b! ':' :: u) true none (inner cxt c l true false) out) = (.ok (), st base (b! ':' :: u) true none (inner cxt c l true false) out) := by
      unfold Scan.valueCheck
      rw [bind_run (m := Scan.get) (a := st base (b! ':' :: u) true none (inner cxt c l true false) out) (s1 := st base (b! ':' :: u) true none (inner cxt c l true false) out) rfl]
      show (if (inner cxt c l true false).isBlock = true then Scan.rollHere true else pure () : Scan Unit) _ = _
      rw [if_pos hbi, here_run, hc]
      exact roll_stay _ _ _ hb
    rw [bind_run hcc]
    rw [show (st base (b! ':' :: u) true none (inner cxt c l true false) out).sc.context.isBlock = true from hbi]
    rfl
  rw [bind_run hv]
  rw [bind_run (advance_st hA hs (not_break (by decide))).2.2.2]
  exact push_st _

end Yary.Reading
