import Verif.Proof.Reading.Flow

/-! # Block collections end -/

namespace Yary.Reading

open Spec

variable {opts : SFlags} {base : Str}

/-- The indent below all the others. -/
def bottom : List IndentEntry → Nat → Nat
  | [], i => i
  | e :: es, _ => bottom es e.indent

/-- All the indents are gone. -/
def flat (cxt : Context) : Context := { cxt with indents := [], indent := bottom cxt.indents cxt.indent }

theorem popLoop_none (es : List IndentEntry) : ∀ i, popLoop none es i = ([], bottom es i, es.length) := by
  induction es with
  | nil => intro i; rfl
  | cons e es ih => intro i; simp [popLoop, deeper, bottom, ih]

theorem popLoop_some (c : Option Nat) (es : List IndentEntry) : ∀ i, ∃ pre, es = pre ++ (popLoop c es i).1 ∧ (popLoop c es i).2.2 = pre.length ∧
    bottom (popLoop c es i).1 (popLoop c es i).2.1 = bottom es i := by
  induction es with
  | nil => intro i; exact ⟨[], rfl, rfl, rfl⟩
  | cons e es ih =>
    intro i
    unfold popLoop
    split
    · obtain ⟨pre, h1, h2, h3⟩ := ih e.indent
      refine ⟨e :: pre, ?_, ?_, h3⟩
      · simp only [List.cons_append, List.cons.injEq, true_and]; exact h1
      · simp [h2]
    · exact ⟨[], rfl, rfl, rfl⟩

/-- Some indents are gone. -/
def Popped (cxt cxt' : Context) (k : Nat) : Prop :=
  ∃ pre rest i, cxt.indents = pre ++ rest ∧ cxt' = { cxt with indents := rest, indent := i } ∧ k = pre.length ∧
    bottom rest i = bottom cxt.indents cxt.indent

theorem Popped.refl (cxt : Context) : Popped cxt cxt 0 := ⟨[], cxt.indents, cxt.indent, rfl, rfl, rfl, rfl⟩

theorem Popped.trans {a b c : Context} {k l : Nat} (h : Popped a b k) (h' : Popped b c l) : Popped a c (k + l) := by
  obtain ⟨p, r, i, h1, rfl, h3, h4⟩ := h
  obtain ⟨p', r', i', g1, rfl, g3, g4⟩ := h'
  simp only at g1 g4
  subst g1
  exact ⟨p ++ p', r', i', by simp [h1], rfl, by simp [h3, g3], g4.trans h4⟩

/-- The end of a block collection, `n` times. -/
def ends (base t : Str) (n : Nat) : List TokenEntry := List.replicate n ⟨.Token .BlockEnd, (place base t).read⟩

theorem ends_add (t : Str) (n m : Nat) : ends base t n ++ ends base t m = ends base t (n + m) := by simp [ends]

theorem unroll_run {t : Str} {al : Bool} {key : Option KeySave} {cxt : Context} {out : List TokenEntry} (c : Option Nat) :
    Scan.unrollIndent c (st base t al key cxt out) = (.ok (), st base t al key (cxt.indentDecrement c).1 (out ++ ends base t (cxt.indentDecrement c).2)) := rfl

theorem unroll_some {cxt : Context} (hb : cxt.isBlock = true) (n : Option Nat) :
    Popped cxt (cxt.indentDecrement n).1 (cxt.indentDecrement n).2 := by
  unfold Context.indentDecrement
  rw [if_pos hb]
  obtain ⟨pre, h1, h2, h3⟩ := popLoop_some n cxt.indents cxt.indent
  exact ⟨pre, _, _, h1, rfl, h2, h3⟩

theorem unroll_none {cxt cxt' : Context} {k : Nat} (hb : cxt.isBlock = true) (h : Popped cxt cxt' k) :
    cxt'.indentDecrement none = (flat cxt, cxt.indents.length - k) := by
  obtain ⟨pre, rest, i, h1, rfl, rfl, h4⟩ := h
  unfold Context.indentDecrement
  rw [if_pos (show Context.isBlock { cxt with indents := rest, indent := i } = true from hb)]
  simp only [popLoop_none, h4, flat, h1, List.length_append]
  simp

theorem popZero_popped {t : Str} {al : Bool} {key : Option KeySave} {cxt : Context} {out : List TokenEntry} :
    ∃ cxt' k, Popped cxt cxt' k ∧ Scan.popZeroIndent (st base t al key cxt out) = (.ok (), st base t al key cxt' (out ++ ends base t k)) := by
  rw [popZero_run]
  cases hi : cxt.indents with
  | nil => exact ⟨cxt, 0, .refl _, by simp [ends]⟩
  | cons e es =>
    simp only
    split
    · exact ⟨{ cxt with indents := es, indent := e.indent }, 1, ⟨[e], es, e.indent, by simp [hi], rfl, rfl, by simp [hi, bottom]⟩, by simp [ends]⟩
    · exact ⟨cxt, 0, .refl _, by simp [ends]⟩

theorem tail_unroll {t : Str} {al : Bool} {key : Option KeySave} {cxt : Context} {out : List TokenEntry} :
    tail opts (st base t al key cxt out) = (Scan.popZeroIndent >>= fun _ => Scan.fetchNext opts) (st base t al key (cxt.indentDecrement (some (columnOf base t))).1
      (out ++ ends base t (cxt.indentDecrement (some (columnOf base t))).2)) := by
  unfold tail
  rw [bind_run (m := Scan.get) (a := st base t al key cxt out) (s1 := st base t al key cxt out) rfl]
  rw [bind_run (show Scan.unrollIndent (some (st base t al key cxt out).sc.stats.column) (st base t al key cxt out) =
    (.ok (), st base t al key (cxt.indentDecrement (some (columnOf base t))).1 (out ++ ends base t (cxt.indentDecrement (some (columnOf base t))).2)) from
    unroll_run (some (columnOf base t)))]

/-- What `tail` does first. -/
theorem tail_popped {t : Str} {al : Bool} {key : Option KeySave} {cxt : Context} {out : List TokenEntry} (hb : cxt.isBlock = true) :
    ∃ cxt' k, Popped cxt cxt' k ∧ tail opts (st base t al key cxt out) = Scan.fetchNext opts (st base t al key cxt' (out ++ ends base t k)) := by
  have h1 := unroll_some hb (some (columnOf base t))
  obtain ⟨cxt', k, h2, h3⟩ := popZero_popped (base := base) (t := t) (al := al) (key := key) (cxt := (cxt.indentDecrement (some (columnOf base t))).1)
    (out := out ++ ends base t (cxt.indentDecrement (some (columnOf base t))).2)
  refine ⟨cxt', _, h1.trans h2, ?_⟩
  rw [tail_unroll]
  rw [bind_run h3, List.append_assoc, ends_add]

theorem dispatch_marker {u : Str} (cxt : Context) (start : Bool) (h : EndsHere u) :
    Scan.dispatch cxt 0 ((if start then bytes! "---" else bytes! "...") ++ u) = .marker start := by
  unfold Scan.dispatch
  cases start <;> simp [startsWith, startsMarker, isWhiteSpaceZ_iff.2 h]

/-- After the unrolling of a marker. -/
def markerRest (start : Bool) : Scan Unit := do
  Scan.removeSavedKey
  Scan.upd fun sc => { sc with simpleKeyAllowed := false }
  Scan.advance 3
  Scan.push (if start then .DocumentStart else .DocumentEnd)

/-- After the unrolling of a directive. -/
def directiveRest (r : Token × Cur) : Scan Unit := do
  Scan.removeSavedKey
  Scan.upd fun sc => { sc with simpleKeyAllowed := false }
  let s ← Scan.get
  Scan.commit r.2.buf (s.sc.stats.add r.2.stats)
  Scan.push r.1

/-- After the unrolling at the end. -/
def endRest : Scan Unit := do
  Scan.removeSavedKey
  Scan.upd fun sc => { sc with state := .Done }
  Scan.push .StreamEnd

theorem tail_end {al : Bool} {key : Option KeySave} {cxt : Context} {out : List TokenEntry} (hb : cxt.isBlock = true) :
    tail opts (st base [] al key cxt out) = endRest (st base [] al key (flat cxt) (out ++ ends base [] cxt.indents.length)) := by
  obtain ⟨cxt', k, h1, h2⟩ := tail_popped (opts := opts) (base := base) (t := []) (al := al) (key := key) (out := out) hb
  rw [h2]
  have h3 := unroll_none hb h1
  have hk : k ≤ cxt.indents.length := by
    obtain ⟨pre, rest, i, e1, -, e3, -⟩ := h1
    simp [e1, e3]
  have he : Scan.fetchNext opts (st base [] al key cxt' (out ++ ends base [] k)) = Scan.fetchStreamEnd (st base [] al key cxt' (out ++ ends base [] k)) := by
    unfold Scan.fetchNext
    rw [bind_run (m := Scan.get) (a := st base [] al key cxt' (out ++ ends base [] k)) (s1 := st base [] al key cxt' (out ++ ends base [] k)) rfl]
    rfl
  rw [he]
  unfold Scan.fetchStreamEnd
  rw [bind_run (m := Scan.get) (a := st base [] al key cxt' (out ++ ends base [] k)) (s1 := st base [] al key cxt' (out ++ ends base [] k)) rfl]
  show (Scan.unrollIndent none >>= fun _ => endRest) _ = _
  rw [bind_run (unroll_run none), h3, List.append_assoc, ends_add]
  simp only
  rw [Nat.add_sub_cancel' hk]

theorem tail_marker (hx : opts.extendable = false) {u : Str} {start : Bool} {al : Bool} {key : Option KeySave} {cxt : Context} {out : List TokenEntry} (hb : cxt.isBlock = true)
    (hc : columnOf base ((if start then bytes! "---" else bytes! "...") ++ u) = 0) (hw : EndsHere u) :
    tail opts (st base ((if start then bytes! "---" else bytes! "...") ++ u) al key cxt out) =
      markerRest start (st base ((if start then bytes! "---" else bytes! "...") ++ u) al key (flat cxt)
        (out ++ ends base ((if start then bytes! "---" else bytes! "...") ++ u) cxt.indents.length)) := by
  obtain ⟨cxt', k, h1, h2⟩ := tail_popped (opts := opts) (base := base) (t := (if start then bytes! "---" else bytes! "...") ++ u) (al := al) (key := key) (out := out) hb
  have h3 := unroll_none hb h1
  have hk : k ≤ cxt.indents.length := by
    obtain ⟨pre, rest, i, e1, -, e3, -⟩ := h1
    simp [e1, e3]
  rw [h2, fetchNext_run hx (by cases start <;> simp), hc, dispatch_marker _ _ hw]
  show (Scan.unrollIndent none >>= fun _ => markerRest start) _ = _
  rw [bind_run (unroll_run none), h3, List.append_assoc, ends_add]
  simp only
  rw [Nat.add_sub_cancel' hk]

theorem tail_directive (hx : opts.extendable = false) {u : Str} {al : Bool} {key : Option KeySave} {cxt : Context} {out : List TokenEntry} (hb : cxt.isBlock = true)
    (hc : columnOf base (b! '%' :: u) = 0) {A : SS} :
    tail opts (st base (b! '%' :: u) al key cxt out) = (.ok (), A) ↔ ∃ r, Scan.directiveToken opts ⟨b! '%' :: u, {}⟩ = .ok r ∧
      directiveRest r (st base (b! '%' :: u) al key (flat cxt) (out ++ ends base (b! '%' :: u) cxt.indents.length)) = (.ok (), A) := by
  obtain ⟨cxt', k, h1, h2⟩ := tail_popped (opts := opts) (base := base) (t := b! '%' :: u) (al := al) (key := key) (out := out) hb
  have h3 := unroll_none hb h1
  have hk : k ≤ cxt.indents.length := by
    obtain ⟨pre, rest, i, e1, -, e3, -⟩ := h1
    simp [e1, e3]
  have hd : Scan.dispatch cxt' 0 (b! '%' :: u) = .directive := by
    unfold Scan.dispatch
    simp [startsWith]
  rw [h2, fetchNext_run hx (by simp), hc, hd]
  show (Scan.sub {} (Scan.directiveToken opts) >>= fun r => Scan.unrollIndent none >>= fun _ => directiveRest r) _ = _ ↔ _
  have hsub : ∀ x, Scan.directiveToken opts ⟨b! '%' :: u, {}⟩ = x → Scan.sub {} (Scan.directiveToken opts) (st base (b! '%' :: u) al key cxt' (out ++ ends base (b! '%' :: u) k)) =
      SO.lift x (st base (b! '%' :: u) al key cxt' (out ++ ends base (b! '%' :: u) k)) := by
    rintro x rfl
    rfl
  cases hq : Scan.directiveToken opts ⟨b! '%' :: u, {}⟩ with
  | ok r =>
    rw [bind_run (a := r) (s1 := st base (b! '%' :: u) al key cxt' (out ++ ends base (b! '%' :: u) k)) (hsub _ hq)]
    rw [bind_run (unroll_run none), h3, List.append_assoc, ends_add]
    simp only
    rw [Nat.add_sub_cancel' hk]
    simp
  | err e =>
    have := hsub _ hq
    simp [bind, SO.bind, this, SO.lift]
  | panic =>
    have := hsub _ hq
    simp [bind, SO.bind, this, SO.lift]
  | diverge =>
    have := hsub _ hq
    simp [bind, SO.bind, this, SO.lift]

/-- At the end, a marker or a directive, all the indents go. -/
theorem leads_flat (hx : opts.extendable = false) {t : Str} {al : Bool} {key : Option KeySave} {C1 C2 : Context} {out1 out2 : List TokenEntry}
    (ht : t = [] ∨ AtBoundary base t) (h1 : C1.isBlock = true) (h2 : C2.isBlock = true) (hf : flat C1 = flat C2)
    (ho : out1 ++ ends base t C1.indents.length = out2 ++ ends base t C2.indents.length) :
    Leads opts (st base t al key C1 out1) (st base t al key C2 out2) := by
  rcases ht with rfl | ⟨hc, hm | ⟨u, rfl⟩⟩
  · refine .of_tail ?_
    rw [tail_end h1, tail_end h2, hf, ho]
  · refine .of_tail ?_
    obtain ⟨start, u, rfl, hw⟩ : ∃ (start : Bool) (u : Str), t = (if start then bytes! "---" else bytes! "...") ++ u ∧ EndsHere u := by
      obtain ⟨u, h, hw⟩ := hm
      have hw : EndsHere u := by
        rcases hw with h | ⟨w, h⟩ | h
        · exact .inl h
        · refine .inr ?_
          rcases h with rfl | rfl
          · exact .inl ⟨_, .inl rfl⟩
          · exact .inl ⟨_, .inr rfl⟩
        · exact .inr (.inr h)
      rcases h with rfl | rfl
      · exact ⟨true, u, rfl, hw⟩
      · exact ⟨false, u, rfl, hw⟩
    rw [tail_marker hx h1 hc hw, tail_marker hx h2 hc hw, hf, ho]
  · rintro F ⟨A, hA, hF⟩
    refine ⟨A, ?_, hF⟩
    rw [tail_directive hx h2 hc] at hA
    rw [tail_directive hx h1 hc, hf, ho]
    exact hA

/-! ## The context in a block collection -/

/-- The context in a block collection in column `c`. -/
def inner (cxt : Context) (c line : Nat) (map zero : Bool) : Context :=
  { cxt with
    started := true
    indents := { indent := cxt.indent, kind := if map then .BlockMappingStart else .BlockSequenceStart, line, zeroIndented := zero } :: cxt.indents
    indent := c }

/-- The context after it. -/
def after (cxt : Context) : Context := { cxt with started := true }

theorem after_of {cxt : Context} (h : cxt.started = true) : after cxt = cxt := by
  cases cxt
  simp_all [after]

/-- Where a block collection may begin. -/
structure Under (cxt : Context) (c : Nat) (zero : Bool) : Prop where
  block : cxt.isBlock = true
  sound : Sound cxt
  here : if zero then cxt.level = some c ∧ Scan.lastIsMap cxt = true else levelLt cxt.level c = true

theorem flat_inner {cxt : Context} {c line : Nat} {map zero : Bool} : flat (inner cxt c line map zero) = flat (after cxt) := rfl

/-- A block collection ends. -/
theorem leads_close (hx : opts.extendable = false) {t : Str} {al : Bool} {key : Option KeySave} {cxt : Context} {c line : Nat} {map zero : Bool}
    {out : List TokenEntry} (hu : Under cxt c zero) (h : Closes base zero c t) (hm : zero = true → map = false)
    (hln : zero = true → t ≠ [] → line < lineOf base t) :
    Leads opts (st base t al key (inner cxt c line map zero) out) (st base t al key (after cxt) (out ++ ends base t 1)) := by
  have hb1 : (inner cxt c line map zero).isBlock = true := hu.block
  have hb2 : (after cxt).isBlock = true := hu.block
  by_cases hfl : t = [] ∨ AtBoundary base t
  · refine leads_flat hx hfl hb1 hb2 flat_inner ?_
    rw [List.append_assoc, ends_add]
    show _ = out ++ ends base t (1 + cxt.indents.length)
    rw [Nat.add_comm]
    rfl
  refine .of_tail ?_
  rw [tail_unroll, tail_unroll]
  rcases h with h | h | h | ⟨rfl, h, hne⟩
  · exact absurd (.inl h) hfl
  · -- to the left
    have hd : (inner cxt c line map zero).indentDecrement (some (columnOf base t)) =
        (((after cxt).indentDecrement (some (columnOf base t))).1, ((after cxt).indentDecrement (some (columnOf base t))).2 + 1) := by
      unfold Context.indentDecrement
      rw [if_pos hb1, if_pos hb2]
      have : deeper c (some (columnOf base t)) = true := by simpa [deeper] using h
      simp only [inner, popLoop, this, ↓reduceIte]
      rfl
    rw [hd]
    simp only
    rw [List.append_assoc, ends_add, Nat.add_comm 1]
  · exact absurd (.inr h) hfl
  · -- not indented
    have hh := hu.here
    simp only [↓reduceIte] at hh
    obtain ⟨hl, hmap⟩ := hh
    have hci : cxt.indent = c := by
      unfold Context.level at hl
      split at hl
      · simpa using hl
      · cases hl
    have hne' : t ≠ [] := fun h => hfl (.inl h)
    have hlt := hln rfl hne'
    have d1 : (inner cxt c line map true).indentDecrement (some (columnOf base t)) = (inner cxt c line map true, 0) := by
      unfold Context.indentDecrement
      rw [if_pos hb1]
      have : deeper c (some (columnOf base t)) = false := by simp [deeper, h]
      simp [inner, popLoop, this]
    have d2 : (after cxt).indentDecrement (some (columnOf base t)) = (after cxt, 0) := by
      unfold Context.indentDecrement
      rw [if_pos hb2]
      have : deeper cxt.indent (some (columnOf base t)) = false := by simp [deeper, h, hci]
      cases hi : cxt.indents with
      | nil => simp [after, popLoop, hi]
      | cons e es => simp [after, popLoop, this, hi]
    rw [d1, d2]
    have hsw : startsWith t b! '-' = false := by
      cases hs : startsWith t b! '-' with
      | false => rfl
      | true =>
        obtain ⟨u, hu⟩ := startsWith_iff.1 hs
        exact absurd hu (hne u)
    have z1 : Scan.popZeroIndent (st base t al key (inner cxt c line map true) (out ++ ends base t 0)) = (.ok (), st base t al key (after cxt) (out ++ ends base t 1)) := by
      rw [popZero_run]
      rw [hm rfl]
      simp [inner, hlt, hsw, ends, after]
    have z2 : Scan.popZeroIndent (st base t al key (after cxt) (out ++ ends base t 1 ++ ends base t 0)) = (.ok (), st base t al key (after cxt) (out ++ ends base t 1)) := by
      rw [popZero_run]
      have e0 : out ++ ends base t 1 ++ ends base t 0 = out ++ ends base t 1 := by simp [ends]
      rw [e0]
      cases hi : cxt.indents with
      | nil => simp [after, hi]
      | cons e es =>
        have : e.kind = .BlockMappingStart := by simpa [Scan.lastIsMap, hi] using hmap
        simp [after, hi, this]
    simp only
    rw [bind_run z1, bind_run z2]

end Yary.Reading
