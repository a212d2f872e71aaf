import Verif.Spec.Language
import Verif.Proof.Reading.Feeds
import Verif.Proof.Scan.PlainValue

/-! # Steps from the beginning of a token to the beginning of the next one -/

namespace Yary.Reading

open Spec

variable {opts : SFlags} {base : Str}

/-! ## Places -/

/-- A place the reading of the text comes to. -/
def On (base s : Str) : Prop := Reads ⟨base, {}⟩ ⟨s, place base s⟩

theorem place_of {p r : Str} (h : base = p ++ r) : place base r = posAfter {} p := by
  unfold place
  subst h
  simp

theorem On.start : On base base := by
  have : place base base = {} := by exact (place_of (p := []) rfl).trans (posAfter_nil _)
  unfold On
  rw [this]
  exact .refl _

theorem On.next {s r : Str} {m : MStats} (h : On base s) (hr : Reads ⟨s, place base s⟩ ⟨r, m⟩) : m = place base r ∧ On base r := by
  have ht := Reads.trans h hr
  obtain ⟨p, h1, h2⟩ := ht.posAfter
  simp only at h1 h2
  have : m = place base r := by rw [place_of h1, h2]
  exact ⟨this, by rw [this] at ht; exact ht⟩

/-- From one place to a later one. -/
def Passes (base s r : Str) : Prop := Reads ⟨s, place base s⟩ ⟨r, place base r⟩

theorem On.pass {s r : Str} (h : On base s) (h' : Passes base s r) : On base r := Reads.trans h h'

theorem On.passes {s r : Str} {m : MStats} (h : On base s) (hr : Reads ⟨s, place base s⟩ ⟨r, m⟩) : m = place base r ∧ Passes base s r := by
  obtain ⟨h1, -⟩ := h.next hr
  subst h1
  exact ⟨rfl, hr⟩

theorem Passes.refl (s : Str) : Passes base s s := Reads.refl _

theorem Passes.trans {s r t : Str} (h : Passes base s r) (h' : Passes base r t) : Passes base s t := Reads.trans h h'

theorem Passes.read_le {s r : Str} (h : Passes base s r) : (place base s).read ≤ (place base r).read := Reads.read_le h

theorem Passes.line_le {s r : Str} (h : Passes base s r) : lineOf base s ≤ lineOf base r := Reads.lines_le h

theorem Passes.suffix {s r : Str} (h : Passes base s r) : ∃ p, s = p ++ r := Reads.suffix h

theorem Passes.read {s r : Str} (h : Passes base s r) : (place base r).read + r.length = (place base s).read + s.length := by
  have := Reads.read h
  simp only at this
  omega

theorem On.suffix {s : Str} (h : On base s) : ∃ p, base = p ++ s := Reads.suffix h

theorem On.ascii {s : Str} (h : On base s) (hA : Ascii base) : Ascii s := by
  obtain ⟨p, hp⟩ := h.suffix
  rw [hp] at hA
  exact hA.right

theorem On.read {s : Str} (h : On base s) : (place base s).read = base.length - s.length := by
  obtain ⟨p, hp⟩ := h.suffix
  rw [place_of hp, hp]
  simp [posAfter]

theorem around_nil {s : Str} (h : Ascii s) : Around s [] := ⟨⟨s, by simp, h⟩, fun b t h => by cases h⟩

theorem around_of {p r : Str} (h : Ascii (p ++ r)) : Around (p ++ r) r :=
  ⟨⟨p, rfl, h.left⟩, fun b t hr => .inl (h.right b (by rw [hr]; simp))⟩

theorem around_suffix {s p r : Str} (hs : s = p ++ r) (h : Ascii s) : Around s r := by
  subst hs
  exact around_of h

/-! ## The state in front of a token -/

/-- The state at `t`. -/
def st (base t : Str) (al : Bool) (key : Option KeySave) (cxt : Context) (out : List TokenEntry) : SS :=
  ⟨{ offset := 0, state := .Stream, simpleKeyAllowed := al, stats := place base t, key := key, context := cxt }, t, out⟩

/-- White space is skipped. -/
theorem gap_run (hx : opts.extendable = false) (hA : Ascii base) {r t : Str} {n : Nat} (h : On base r) (hs : Skips true r n t)
    (al : Bool) (key : Option KeySave) (cxt : Context) (out : List TokenEntry) :
    Passes base r t ∧ lineOf base t = lineOf base r + n ∧
      Scan.eatWhitespace opts (st base r al key cxt out) = (.ok (), st base t (al || decide (n ≠ 0)) key cxt out) := by
  obtain ⟨p, hp⟩ := hs.suffix
  have hA' : Around r t := around_suffix hp (h.ascii hA)
  obtain ⟨m', he⟩ := eatWs_around (m := {}) hx hs hA'
  have hbd : isBoundary r (r.length - t.length) = true := hA'.boundary (by rw [hp]; simp)
  have hews : Scan.eatWhitespace opts (st base r al key cxt out) = (.ok (), ⟨{ offset := 0, state := .Stream, simpleKeyAllowed := if m'.lines ≠ 0 then true else al, stats := (place base r).add m', key := key, context := cxt }, t, out⟩) := by
    unfold Scan.eatWhitespace Scan.sub st
    simp [bind, SO.bind, Scan.get, SO.get, SO.lift, he, Scan.upd, SO.modify, Scan.commit, hbd]
  obtain ⟨n', q, e1, -, -, e2, -, e3⟩ := C14_line_change hews
  simp only [st] at e1 e2 e3
  obtain ⟨rfl, -⟩ := hs.unique e1
  have hr : Reads ⟨r, {}⟩ ⟨t, m'⟩ := (eatWs_sat (P := True) (opts := opts) (comments := true) (c := ⟨r, {}⟩) (.inl trivial)).of_ok he
  obtain ⟨hm, hon⟩ := h.passes hr.add0
  simp only at hm
  refine ⟨hon, ?_, ?_⟩
  · unfold lineOf
    rw [← hm, e2]
  · rw [hews, hm]
    have : (if m'.lines ≠ 0 then true else al) = (al || decide (n ≠ 0)) := by
      rw [Bool.eq_iff_iff]
      simpa using e3
    rw [this]
    rfl

/-- What becomes of a key at a later position. -/
def aged (m : MStats) : Option KeySave → Option KeySave
  | none => none
  | some k => if k.possible.allowed && (k.stats.lines < m.lines || k.stats.read + 1024 < m.read) then some { k with possible := .No } else some k

/-- A key that is due can be kept. -/
def Keeps (m : MStats) (key : Option KeySave) : Prop :=
  ∀ k, key = some k → k.possible = .Required → m.lines ≤ k.stats.lines ∧ m.read ≤ k.stats.read + 1024

theorem expire_run {t : Str} {al : Bool} {key : Option KeySave} {cxt : Context} {out : List TokenEntry} (h : Keeps (place base t) key) :
    Scan.expireKey (st base t al key cxt out) = (.ok (), st base t al (aged (place base t) key) cxt out) := by
  unfold Scan.expireKey
  rw [bind_run (m := Scan.get) (a := st base t al key cxt out) (s1 := st base t al key cxt out) rfl]
  cases key with
  | none => rfl
  | some k =>
    show (if (k.possible.allowed && (decide (k.stats.lines < (place base t).lines) || decide (k.stats.read + 1024 < (place base t).read))) = true then
        (if k.possible.required then SO.fail .MissingValue else Scan.upd fun sc => { sc with key := some { k with possible := .No } }) else pure () : Scan Unit)
        (st base t al (some k) cxt out) = _
    simp only [aged]
    by_cases hc : (k.possible.allowed && (decide (k.stats.lines < (place base t).lines) || decide (k.stats.read + 1024 < (place base t).read))) = true
    · rw [if_pos hc, if_pos hc]
      have hreq : k.possible.required = false := by
        cases hp : k.possible with
        | No => rfl
        | Yes => rfl
        | Required =>
          obtain ⟨h1, h2⟩ := h k rfl hp
          simp only [Bool.and_eq_true, Bool.or_eq_true, decide_eq_true_eq] at hc
          omega
      rw [hreq]
      rfl
    · rw [if_neg hc, if_neg hc]
      rfl

/-! ## Steps -/

/-- A step, once white space is skipped and the key is checked. -/
def tail (opts : SFlags) : Scan Unit := do
  let s ← Scan.get
  Scan.unrollIndent (some s.sc.stats.column)
  Scan.popZeroIndent
  Scan.fetchNext opts

/-- From in front of a token, the steps lead to the end. -/
def Ends (opts : SFlags) (R F : SS) : Prop :=
  ∃ A, tail opts R = (.ok (), A) ∧ (A.sc.state = .Done ∧ F = A ∨ Goes opts A F)

/-- From in front of one token, the steps lead in front of another one. -/
def Leads (opts : SFlags) (R R' : SS) : Prop := ∀ F, Ends opts R' F → Ends opts R F

theorem Leads.refl (R : SS) : Leads opts R R := fun _ h => h

theorem Leads.trans {R R' R'' : SS} (h : Leads opts R R') (h' : Leads opts R' R'') : Leads opts R R'' := fun F hF => h F (h' F hF)

theorem Leads.of_tail {R R' : SS} (h : tail opts R = tail opts R') : Leads opts R R' := by
  rintro F ⟨A, h1, h2⟩
  exact ⟨A, h.trans h1, h2⟩

/-- From right after a token. -/
theorem goes_of_ends {A A1 R F : SS} (hst : A.sc.state = .Stream) (h1 : Scan.eatWhitespace opts A = (.ok (), A1))
    (h2 : Scan.expireKey A1 = (.ok (), R)) (h : Ends opts R F) : Goes opts A F := by
  obtain ⟨B, hB, hF⟩ := h
  have hs : Scan.scanNextToken opts A = (.ok (), B) := by
    unfold Scan.scanNextToken
    rw [bind_run (m := Scan.get) (a := A) (s1 := A) rfl]
    have : (A.sc.state == .Start) = false := by rw [hst]; rfl
    rw [this]
    simp only [Bool.false_eq_true, ↓reduceIte]
    unfold Scan.prepare
    rw [← hB]
    simp only [bind, SO.bind, h1, h2, tail]
    cases hg : (Scan.get : Scan SS) R with
    | mk x y =>
      have : x = .ok R ∧ y = R := by
        have : (Scan.get : Scan SS) R = (.ok R, R) := rfl
        rw [this] at hg
        injection hg with a b
        exact ⟨a.symm, b.symm⟩
      obtain ⟨rfl, rfl⟩ := this
      rfl
  have hd : A.sc.state ≠ .Done := by rw [hst]; decide
  rcases hF with ⟨hdone, rfl⟩ | hg
  · exact .last hd hs hdone
  · exact .step hd hs hg

/-! ## Indents stay -/

/-- Which line the content of the innermost sequence must be in, if it is not indented. -/
def zeroLine (cxt : Context) : Option Nat :=
  match cxt.indents with
  | [] => none
  | e :: _ => if e.zeroIndented && e.kind == .BlockSequenceStart then some e.line else none

/-- The spot of the next token. -/
def spotOf (cxt : Context) : Spot := ⟨cxt.isBlock, cxt.level, zeroLine cxt⟩

/-- No indents without having begun. -/
def Sound (cxt : Context) : Prop := cxt.indents ≠ [] → cxt.started = true

/-- No collection ends before the token at `s`. -/
def Calm (base : Str) (cxt : Context) (s : Str) : Prop :=
  (cxt.flow = 0 → cxt.indents ≠ [] → cxt.indent ≤ columnOf base s) ∧
  ∀ l, zeroLine cxt = some l → lineOf base s ≤ l ∨ startsWith s b! '-' = true

theorem calm_of {cxt : Context} {s : Str} (hs : Sound cxt) (h : (spotOf cxt).Ok base s) : Calm base cxt s := by
  refine ⟨fun hf hi => ?_, fun l hl => .inl ?_⟩
  · have := h.1 (by simp [spotOf, Context.isBlock, hf]) cxt.indent (by simp [spotOf, Context.level, hs hi])
    omega
  · have := h.2 l hl
    omega

theorem popZero_run {s : Str} {al : Bool} {key : Option KeySave} {cxt : Context} {out : List TokenEntry} :
    Scan.popZeroIndent (st base s al key cxt out) = (.ok (), match cxt.indents with
      | [] => st base s al key cxt out
      | e :: es =>
        if e.line < lineOf base s && e.zeroIndented && e.kind == .BlockSequenceStart && !startsWith s b! '-' then
          st base s al key { cxt with indents := es, indent := e.indent } (out ++ [⟨.Token .BlockEnd, (place base s).read⟩])
        else st base s al key cxt out) := rfl

theorem tail_calm {s : Str} {al : Bool} {key : Option KeySave} {cxt : Context} {out : List TokenEntry} (h : Calm base cxt s) :
    tail opts (st base s al key cxt out) = Scan.fetchNext opts (st base s al key cxt out) := by
  unfold tail
  rw [bind_run (m := Scan.get) (a := st base s al key cxt out) (s1 := st base s al key cxt out) rfl]
  have h1 : Scan.unrollIndent (some (columnOf base s)) (st base s al key cxt out) = (.ok (), st base s al key cxt out) := by
    unfold Scan.unrollIndent SO.modify
    have : cxt.indentDecrement (some (columnOf base s)) = (cxt, 0) := by
      unfold Context.indentDecrement
      by_cases hb : cxt.isBlock = true
      · rw [if_pos hb]
        have hf : cxt.flow = 0 := by simpa [Context.isBlock] using hb
        cases hi : cxt.indents with
        | nil => simp only [popLoop]; rw [← hi]
        | cons e es =>
          have := h.1 hf (by rw [hi]; simp)
          have hd : deeper cxt.indent (some (columnOf base s)) = false := by simp [deeper]; omega
          simp only [popLoop, hd, Bool.false_eq_true, ↓reduceIte]
          rw [← hi]
      · rw [if_neg hb]
    simp only [st, this, List.replicate_zero, List.append_nil]
  have h2 : Scan.popZeroIndent (st base s al key cxt out) = (.ok (), st base s al key cxt out) := by
    rw [popZero_run]
    cases hi : cxt.indents with
    | nil => rfl
    | cons e es =>
      simp only
      split
      · rename_i hc
        simp only [Bool.and_eq_true, decide_eq_true_eq, Bool.not_eq_true'] at hc
        obtain ⟨⟨⟨c1, c2⟩, c3⟩, c4⟩ := hc
        have := h.2 e.line (by simp [zeroLine, hi, c2, c3])
        rcases this with h | h
        · omega
        · rw [h] at c4; cases c4
      · rfl
  rw [bind_run (show Scan.unrollIndent (some (st base s al key cxt out).sc.stats.column) (st base s al key cxt out) = _ from h1), bind_run h2]

/-- One token, and the gap after it. -/
theorem leads_token (hx : opts.extendable = false) (hA : Ascii base) {s r t : Str} {n : Nat} {al al1 : Bool} {key key1 : Option KeySave}
    {cxt cxt1 : Context} {out out1 : List TokenEntry} (hc : Calm base cxt s)
    (hf : Scan.fetchNext opts (st base s al key cxt out) = (.ok (), st base r al1 key1 cxt1 out1)) (hr : On base r) (hg : Skips true r n t)
    (hk : Keeps (place base t) key1) :
    Leads opts (st base s al key cxt out) (st base t (al1 || decide (n ≠ 0)) (aged (place base t) key1) cxt1 out1) := by
  intro F hF
  obtain ⟨-, -, h1⟩ := gap_run hx hA hr hg al1 key1 cxt1 out1
  exact ⟨_, (tail_calm hc).trans hf, .inr (goes_of_ends rfl h1 (expire_run hk) hF)⟩

/-- What is fetched from a nonempty text. -/
theorem fetchNext_run (hx : opts.extendable = false) {s : Str} {al : Bool} {key : Option KeySave} {cxt : Context} {out : List TokenEntry} (hne : s ≠ []) :
    Scan.fetchNext opts (st base s al key cxt out) = Scan.run opts (Scan.dispatch cxt (columnOf base s) s) (st base s al key cxt out) := by
  unfold Scan.fetchNext
  rw [bind_run (m := Scan.get) (a := st base s al key cxt out) (s1 := st base s al key cxt out) rfl]
  have he : s.isEmpty = false := by
    cases s with
    | nil => exact absurd rfl hne
    | cons => rfl
  have hd : (StreamState.Stream == StreamState.Done) = false := rfl
  simp only [st, he, hd, Bool.or_self, Bool.false_eq_true, ↓reduceIte]
  rw [bind_run (a := ()) (s1 := st base s al key cxt out) (by simp [SO.lift, cache_whole opts hx, st])]
  rfl

end Yary.Reading
