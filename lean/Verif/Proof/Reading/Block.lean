import Verif.Proof.Reading.Signs
import Verif.Proof.Scan.BlockOk

/-! # Block collections are read -/

namespace Yary.Reading

open Spec

variable {opts : SFlags} {base : Str}

/-! ## Lines -/

/-- `t` is in a later line than `s`, or the end. -/
def Later (base s t : Str) : Prop := t = [] ∨ lineOf base s < lineOf base t

theorem Passes.nil {t : Str} (h : Passes base [] t) : t = [] := by
  obtain ⟨p, hp⟩ := h.suffix
  cases p with
  | nil => exact hp.symm
  | cons => cases hp

theorem Later.trans {s t t' : Str} (h : Later base s t) (h' : Passes base t t') : Later base s t' := by
  rcases h with rfl | h
  · exact .inl h'.nil
  · exact .inr (Nat.lt_of_lt_of_le h h'.line_le)

theorem Passes.later {s t t' : Str} (h : Passes base s t) (h' : Later base t t') : Later base s t' := by
  rcases h' with rfl | h'
  · exact .inl rfl
  · exact .inr (Nat.lt_of_le_of_lt h.line_le h')

theorem Passes.column_le {s t : Str} (h : Passes base s t) (hl : lineOf base t = lineOf base s) : columnOf base s ≤ columnOf base t :=
  _root_.Yary.Reads.column_le h hl

/-- From `X` the steps lead in front of `t`, which is in another line or the end; or, for the
beginning of a collection (`first`), where a key may be. -/
structure Ready (opts : SFlags) (base : Str) (first : Bool) (X : SS) (t : Str) (cxt : Context) (out : List TokenEntry) : Prop where
  on : On base t
  go : ∃ al key, Soft (place base t) key ∧ (t = [] ∨ al = true ∧ (first = true ∨ Idle key)) ∧ Leads opts X (st base t al key cxt out)

theorem At.ends (hA : Ascii base) {X : SS} {r t : Str} {al idle : Bool} {cxt : Context} {out : List TokenEntry} (h : At opts base X r al idle cxt out)
    (hl : LineEnds r t) : Passes base r t ∧ Later base r t ∧ Ready opts base false X t cxt out := by
  rcases hl with ⟨n, hs⟩ | ⟨rfl, n, hs⟩
  · obtain ⟨h1, h2⟩ := gap_passes hA h.on hs
    obtain ⟨key, g1, g2, g3⟩ := h.next _ _ hs
    exact ⟨h1, .inr (by omega), h.on.pass h1, _, key, g1, .inr ⟨by simp, .inr (g2 (.inr (by simp)))⟩, g3⟩
  · obtain ⟨h1, h2⟩ := gap_passes hA h.on hs
    obtain ⟨key, g1, g2, g3⟩ := h.next _ _ hs
    exact ⟨h1, .inl rfl, h.on.pass h1, _, key, g1, .inl rfl, g3⟩

theorem At.line (hA : Ascii base) {X : SS} {r t : Str} {al idle : Bool} {cxt : Context} {out : List TokenEntry} (h : At opts base X r al idle cxt out)
    (hl : NewLine r t) : Passes base r t ∧ lineOf base r < lineOf base t ∧ ∃ key, Soft (place base t) key ∧ Idle key ∧
      Leads opts X (st base t true key cxt out) := by
  obtain ⟨n, hs⟩ := hl
  obtain ⟨h1, h2⟩ := gap_passes hA h.on hs
  obtain ⟨key, g1, g2, g3⟩ := h.next _ _ hs
  refine ⟨h1, by omega, key, g1, g2 (.inr (by simp)), ?_⟩
  simpa using g3

/-! ## The statements -/

/-- The tokens in front of the entries. -/
def leadToks (map first : Bool) : List MaybeToken := if first then [.Token (startTok map)] else []

def GBSeq (opts : SFlags) (base : Str) (tags : List (Str × Str)) (c : Nat) (zero first : Bool) (s : Str) (es : List EventData) (t : Str) : Prop :=
  ∀ X cxt C l out, Under cxt c zero → Outer cxt c false zero first C l → (first = true → Calm base cxt s) →
    (first = false → zero = true → s ≠ [] → l < lineOf base s) → Ready opts base first X s C out →
    Passes base s t ∧ (first = true → Later base s t) ∧ ∃ P T, Ready opts base false X t (after cxt) (out ++ P) ∧
      Emit (place base s).read (place base t).read P (leadToks false first ++ T) ∧ TBlockSeq tags T es

def GBMap (opts : SFlags) (base : Str) (tags : List (Str × Str)) (c : Nat) (p : Spot) (first : Bool) (s : Str) (es : List EventData) (t : Str) : Prop :=
  ∀ X cxt C l out, Under cxt c false → Outer cxt c true false first C l → FitsSpot p C → (first = true → p.Ok base s) →
    Ready opts base first X s C out →
    Passes base s t ∧ (first = true → Later base s t) ∧ ∃ P T, Ready opts base false X t (after cxt) (out ++ P) ∧
      Emit (place base s).read (place base t).read P (leadToks true first ++ T) ∧ TBlockMap tags T es

def GBColl (opts : SFlags) (base : Str) (tags : List (Str × Str)) (p : Spot) (kind : NodeKind) (a : Option Str) (tg : Option (Str × Str)) (s : Str)
    (es : List EventData) (t : Str) : Prop :=
  ∀ X cxt out, FitsSpot p cxt → cxt.isBlock = true → p.Ok base s → Ready opts base true X s cxt out →
    Passes base s t ∧ Later base s t ∧ ∃ P T, Ready opts base false X t (after cxt) (out ++ P) ∧
      Emit (place base s).read (place base t).read P T ∧ ∀ ps, TProps ps a tg → Usable tags tg → TNode tags true kind (ps ++ T) es

def GBNode (opts : SFlags) (base : Str) (tags : List (Str × Str)) (p : Spot) (a : Bool) (kind : NodeKind) (s : Str) (es : List EventData) (t : Str) : Prop :=
  ∀ X cxt al key out, FitsSpot p cxt → cxt.isBlock = true → cxt.started = true → On base s → p.Ok base s → Soft (place base s) key →
    (a = true → al = true) → Leads opts X (st base s al key cxt out) →
    Passes base s t ∧ Later base s t ∧ ∃ P T, Ready opts base false X t cxt (out ++ P) ∧
      Emit (place base s).read (place base t).read P T ∧ TNode tags true kind T es

def GBPart (opts : SFlags) (base : Str) (tags : List (Str × Str)) (p : Spot) (map a : Bool) (kind : NodeKind) (u : Str) (es : List EventData) (t : Str) : Prop :=
  ∀ X cxt al out, FitsSpot p cxt → cxt.isBlock = true → cxt.started = true → (map = true → Scan.lastIsMap cxt = true) → (a = true → al = true) →
    At opts base X u al true cxt out →
    Passes base u t ∧ Later base u t ∧ ∃ P T, Ready opts base false X t cxt (out ++ P) ∧
      Emit (place base u).read (place base t).read P T ∧ TPart tags true kind T es

def GBValue (opts : SFlags) (base : Str) (tags : List (Str × Str)) (c : Nat) (s : Str) (es : List EventData) (t : Str) : Prop :=
  ∀ X cxt l out, Under cxt c false → Ready opts base false X s (inner cxt c l true false) out →
    Passes base s t ∧ ∃ P T, Ready opts base false X t (inner cxt c l true false) (out ++ P) ∧
      Emit (place base s).read (place base t).read P T ∧ TValue tags true T es

/-! ## The cases -/

variable {tags : List (Str × Str)}

/-- A collection ends. -/
theorem ready_close (hx : opts.extendable = false) {X : SS} {t : Str} {cxt : Context} {c l : Nat} {map zero : Bool} {out : List TokenEntry}
    (hu : Under cxt c zero) (hm : zero = true → map = false) (h : Closes base zero c t) (hln : zero = true → t ≠ [] → l < lineOf base t)
    (hr : Ready opts base false X t (inner cxt c l map zero) out) :
    Ready opts base false X t (after cxt) (out ++ ends base t 1) ∧ Emit (place base t).read (place base t).read (ends base t 1) [.Token .BlockEnd] := by
  obtain ⟨h1, al, key, h2, h3, h4⟩ := hr
  exact ⟨⟨h1, al, key, h2, h3, h4.trans (leads_close hx hu h hm hln)⟩, .one _ (Nat.le_refl _) (Nat.le_refl _)⟩

theorem bseq_close (hx : opts.extendable = false) {c : Nat} {zero : Bool} {t : Str} (h : Closes base zero c t) :
    GBSeq opts base tags c zero false t [.SequenceEnd] t := by
  intro X cxt C l out hu hC _ hln hr
  simp only [Outer, Bool.false_eq_true, ↓reduceIte] at hC
  subst hC
  obtain ⟨h1, h2⟩ := ready_close hx hu (fun _ => rfl) h (hln rfl) hr
  exact ⟨.refl _, by simp, _, _, h1, h2, .close⟩

theorem bmap_close (hx : opts.extendable = false) {c : Nat} {p : Spot} {t : Str} (h : Closes base false c t) :
    GBMap opts base tags c p false t [.MappingEnd] t := by
  intro X cxt C l out hu hC _ _ hr
  simp only [Outer, Bool.false_eq_true, ↓reduceIte] at hC
  subst hC
  obtain ⟨h1, h2⟩ := ready_close hx hu (by simp) h (by simp) hr
  exact ⟨.refl _, by simp, _, _, h1, h2, .close⟩

theorem lead_emit (map first : Bool) {a b n : Nat} {P : List TokenEntry} {T : List MaybeToken} (h : Emit a b P T) (hn : n ≤ a) :
    Emit n b (lead map first n ++ P) (leadToks map first ++ T) := by
  cases first with
  | true => exact (Emit.one (n := n) (.Token (startTok map)) (Nat.le_refl _) (Nat.le_refl n)).append h hn
  | false => simpa [lead, leadToks] using h.mono hn (Nat.le_refl _)

theorem inner_fits {cxt : Context} {c l : Nat} : FitsSpot (Spot.at c) (inner cxt c l true false) ↔ cxt.isBlock = true := by
  constructor
  · intro h
    exact h.block.symm
  · intro h
    exact ⟨h.symm, rfl, fun l hl => by simp [zeroLine, inner] at hl, fun _ => rfl⟩

/-- The context where an indicator of a block collection is. -/
theorem outer_calm {cxt C : Context} {c l : Nat} {map zero first : Bool} {s : Str} (hC : Outer cxt c map zero first C l) (hc : columnOf base s = c)
    (hf : first = true → Calm base cxt s) (hz : first = false → zero = true → startsWith s b! '-' = true) : Calm base C s := by
  cases first with
  | true =>
    simp only [Outer, ↓reduceIte] at hC
    subst hC
    exact hf rfl
  | false =>
    simp only [Outer, Bool.false_eq_true, ↓reduceIte] at hC
    subst hC
    refine ⟨fun _ _ => by rw [hc]; exact Nat.le_refl _, fun n hn => .inr (hz rfl ?_)⟩
    cases zero with
    | true => rfl
    | false => simp [zeroLine, inner] at hn

theorem bseq_entry (hx : opts.extendable = false) (hA : Ascii base) {c : Nat} {zero first : Bool} {u t t' : Str} {v es : List EventData}
    (hc : columnOf base (b! '-' :: u) = c) (hw : EndsHere u)
    (h : GBPart opts base tags (entrySpot base zero c (b! '-' :: u)) false true .Entry u v t)
    (ht : GBSeq opts base tags c zero false t es t') : GBSeq opts base tags c zero first (b! '-' :: u) (v ++ es) t' := by
  intro X cxt C l out hu hC hcalm hln hr
  obtain ⟨hs, al, key, hk, hal, hL⟩ := hr
  have hal : al = true := by
    rcases hal with h | h
    · cases h
    · exact h.1
  subst hal
  have hfe := dash_fetch (opts := opts) (out := out) hx hA hs hw hk.loose hu hC hc
  obtain ⟨h1, h2, h3, h4⟩ := at_sign (idle := true) hx hA hs (by decide) (outer_calm hC hc hcalm (fun _ _ => rfl)) hfe (.none _) (fun _ => .none)
  have hline : zero = true → touched cxt c (if first then lineOf base (b! '-' :: u) else l) (lineOf base (b! '-' :: u)) = lineOf base (b! '-' :: u) := by
    rintro rfl
    have hh := hu.here
    simp only [↓reduceIte] at hh
    have hci : cxt.indent = c := by
      have := hh.1
      unfold Context.level at this
      split at this
      · simpa using this
      · cases this
    unfold touched
    cases first with
    | true => simp
    | false =>
      have := hln rfl rfl (by simp)
      simp [hci, this]
  have hfit : FitsSpot (entrySpot base zero c (b! '-' :: u)) (inner cxt c (touched cxt c (if first then lineOf base (b! '-' :: u) else l) (lineOf base (b! '-' :: u))) false zero) := by
    refine ⟨hu.block.symm, rfl, fun n hn => ?_, fun _ => rfl⟩
    cases zero with
    | true =>
      simp only [zeroLine, inner, entrySpot] at hn ⊢
      rw [← hline rfl]
      simpa using hn
    | false => simp [zeroLine, inner] at hn
  obtain ⟨g1, g2, P, T, g3, g4, g5⟩ := h X _ true _ hfit hu.block rfl (by simp) (fun _ => rfl) (h4.lead hL)
  obtain ⟨k1, -, P', T', k2, k3, k4⟩ := ht X cxt (inner cxt c (touched cxt c (if first then lineOf base (b! '-' :: u) else l) (lineOf base (b! '-' :: u))) false zero)
    (touched cxt c (if first then lineOf base (b! '-' :: u) else l) (lineOf base (b! '-' :: u))) _ hu (by simp [Outer]) (by simp)
    (fun _ hz hne => by
      rw [hline hz, ← h2]
      rcases g2 with g2 | g2
      · exact absurd g2 hne
      · exact g2) g3
  refine ⟨(h1.trans g1).trans k1, fun _ => (h1.later g2).trans k1, lead false first (place base (b! '-' :: u)).read ++ ([⟨.Token .BlockEntry, (place base u).read⟩] ++ (P ++ P')), _, ?_, ?_, .entry g5 k4⟩
  · simpa using k2
  · refine lead_emit false first ?_ (Nat.le_refl _)
    have e := (Emit.one (a := (place base (b! '-' :: u)).read) (n := (place base u).read) (.Token .BlockEntry) (by omega) (Nat.le_refl _)).append (g4.append k3 (Nat.le_refl _)) (Nat.le_refl _)
    simpa [leadToks] using e

theorem bmap_implicit (hx : opts.extendable = false) (hl : opts.lazy = false) (hA : Ascii base) {c : Nat} {p : Spot} {first : Bool} {s r u t t' : Str}
    {v v' es : List EventData} (hc : columnOf base s = c) (hk : Leaf base tags p .Key s v r) (hg : Gap r (b! ':' :: u)) (hf : KeyFits base s (b! ':' :: u))
    (hw : EndsHere u) (hv : GBPart opts base tags (.at c) true false .Value u v' t) (ht : GBMap opts base tags c (.at c) false t es t') :
    GBMap opts base tags c p first s (v ++ (v' ++ es)) t' := by
  intro X cxt C l out hu hC hfit hok hr
  obtain ⟨hs, al, key, hks, hal, hL⟩ := hr
  obtain ⟨ts, h1, h2⟩ := Leaf.chain hk
  obtain ⟨n, hg⟩ := hg
  have hcalm : Calm base C s := by
    refine outer_calm hC hc (fun hfi => ?_) (by simp)
    subst hfi
    simp only [Outer, ↓reduceIte] at hC
    subst hC
    exact calm_of hfit.sound (hfit.ok s (hok rfl))
  obtain ⟨g1, P, g2, g3⟩ := h1.key (out := out) hx hl hA hfit hg hf hs hcalm hks.loose
  have hal : al = true := by
    rcases hal with rfl | h
    · exact absurd g1.nil (by simp)
    · exact h.1
  subst hal
  have hon := hs.pass g1
  have hcol := g1.column_le hf.1
  have hcalm' : Calm base C (b! ':' :: u) := by
    cases first with
    | true =>
      simp only [Outer, ↓reduceIte] at hC
      subst hC
      refine calm_of hfit.sound (hfit.ok _ ⟨fun hb n hn => ?_, fun m hm => ?_⟩)
      · exact Nat.lt_of_lt_of_le ((hok rfl).1 hb n hn) hcol
      · rw [hf.1]; exact (hok rfl).2 m hm
    | false =>
      simp only [Outer, Bool.false_eq_true, ↓reduceIte] at hC
      subst hC
      refine ⟨fun _ _ => ?_, fun n hn => by simp [zeroLine, inner] at hn⟩
      show c ≤ _
      omega
  have hfe := value_block (opts := opts) (al := false) (d := due base C s) (out := out ++ P) hx hA (s := s) hon hw hu hC hc
  obtain ⟨k1, k2, k3, k4⟩ := at_sign (idle := true) hx hA hon (by decide) hcalm' hfe (.none _) (fun _ => .none)
  obtain ⟨m1, m2, P1, T1, m3, m4, m5⟩ := hv X _ false _ (inner_fits.2 hu.block) hu.block rfl (fun _ => rfl) (by simp) (k4.lead (hL.trans g2))
  obtain ⟨q1, -, P2, T2, q2, q3, q4⟩ := ht X cxt (inner cxt c (if first then lineOf base s else l) true false)
    (if first then lineOf base s else l) _ hu (by simp [Outer]) (inner_fits.2 hu.block) (by simp) m3
  refine ⟨((g1.trans k1).trans m1).trans q1, fun _ => ((g1.trans k1).later m2).trans q1,
    P ++ lead true first (place base s).read ++ [⟨.Token .Key, (place base s).read⟩] ++ [⟨.Token .Value, (place base u).read⟩] ++ (P1 ++ P2),
    .Token .Key :: (ts ++ (.Token .Value :: T1 ++ T2)), ?_, ?_, .pair (.node (h2 _)) (.value m5) q4⟩
  · simpa using q2
  · have e1 : Emit (place base s).read (place base (b! ':' :: u)).read (P ++ lead true first (place base s).read ++ [⟨.Token .Key, (place base s).read⟩])
        (leadToks true first ++ .Token .Key :: ts) := by
      cases first with
      | true => simpa [lead, leadToks] using g3.insert2 (.Token (startTok true)) (.Token .Key) (Nat.lt_succ_self _)
      | false => simpa [lead, leadToks] using g3.insert (.Token .Key) (Nat.lt_succ_self _)
    have e2 := e1.append (Emit.one (n := (place base u).read) (.Token .Value) (Nat.le_refl _) (Nat.le_refl _)) (by omega)
    have e3 := e2.append (m4.append q3 (Nat.le_refl _)) (Nat.le_refl _)
    simpa [leadToks] using e3

theorem bmap_explicit (hx : opts.extendable = false) (hA : Ascii base) {c : Nat} {p : Spot} {first : Bool} {u t t' t'' : Str} {v v' es : List EventData}
    (hc : columnOf base (b! '?' :: u) = c) (hw : EndsHere u) (hk : GBPart opts base tags (.at c) true true .Key u v t)
    (hv : GBValue opts base tags c t v' t') (ht : GBMap opts base tags c (.at c) false t' es t'') :
    GBMap opts base tags c p first (b! '?' :: u) (v ++ (v' ++ es)) t'' := by
  intro X cxt C l out hu hC hfit hok hr
  obtain ⟨hs, al, key, hks, hal, hL⟩ := hr
  have hal : al = true := by
    rcases hal with h | h
    · cases h
    · exact h.1
  subst hal
  have hcalm : Calm base C (b! '?' :: u) := by
    refine outer_calm hC hc (fun hfi => ?_) (by simp)
    subst hfi
    simp only [Outer, ↓reduceIte] at hC
    subst hC
    exact calm_of hfit.sound (hfit.ok _ (hok rfl))
  have hfe := query_block (opts := opts) (out := out) hx hA hs hw hks.loose hu hC hc
  obtain ⟨h1, h2, h3, h4⟩ := at_sign (idle := true) hx hA hs (by decide) hcalm hfe (.none _) (fun _ => .none)
  obtain ⟨m1, m2, P1, T1, m3, m4, m5⟩ := hk X _ true _ (inner_fits.2 hu.block) hu.block rfl (fun _ => rfl) (fun _ => rfl) (h4.lead hL)
  obtain ⟨k1, P2, T2, k2, k3, k4⟩ := hv X cxt _ _ hu m3
  obtain ⟨q1, -, P3, T3, q2, q3, q4⟩ := ht X cxt (inner cxt c (if first then lineOf base (b! '?' :: u) else l) true false)
    (if first then lineOf base (b! '?' :: u) else l) _ hu (by simp [Outer]) (inner_fits.2 hu.block) (by simp) k2
  refine ⟨((h1.trans m1).trans k1).trans q1, fun _ => (h1.later m2).trans (k1.trans q1),
    lead true first (place base (b! '?' :: u)).read ++ ([⟨.Token .Key, (place base u).read⟩] ++ (P1 ++ (P2 ++ P3))), _, ?_, ?_, .pair m5 k4 q4⟩
  · simpa using q2
  · refine lead_emit true first ?_ (Nat.le_refl _)
    have e := (Emit.one (a := (place base (b! '?' :: u)).read) (n := (place base u).read) (.Token .Key) (by omega) (Nat.le_refl _)).append
      (m4.append (k3.append q3 (Nat.le_refl _)) (Nat.le_refl _)) (Nat.le_refl _)
    simpa [leadToks] using e

theorem bvalue_leftOut {c : Nat} {t : Str} : GBValue opts base tags c t [leftOut .Value] t := by
  intro X cxt l out hu hr
  exact ⟨.refl _, [], [], by simpa using hr, .nil (Nat.le_refl _), .leftOut _⟩

theorem bvalue_value (hx : opts.extendable = false) (hA : Ascii base) {c : Nat} {u t : Str} {v : List EventData} (hc : columnOf base (b! ':' :: u) = c)
    (hw : EndsHere u) (h : GBPart opts base tags (.at c) true true .Value u v t) : GBValue opts base tags c (b! ':' :: u) v t := by
  intro X cxt l out hu hr
  obtain ⟨hs, al, key, hks, hal, hL⟩ := hr
  obtain ⟨rfl, hid⟩ : al = true ∧ Idle key := by
    rcases hal with h | ⟨h, h'⟩
    · cases h
    · exact ⟨h, by simpa using h'⟩
  have hcalm : Calm base (inner cxt c l true false) (b! ':' :: u) :=
    ⟨fun _ _ => by rw [hc]; exact Nat.le_refl _, fun n hn => by simp [zeroLine, inner] at hn⟩
  have hfe := bare_block (opts := opts) (l := l) (out := out) hx hA hs hw hid hu.block hc
  obtain ⟨h1, h2, h3, h4⟩ := at_sign (idle := true) hx hA hs (by decide) hcalm hfe (.none _) (fun _ => .none)
  obtain ⟨m1, m2, P1, T1, m3, m4, m5⟩ := h X _ true _ (inner_fits.2 hu.block) hu.block rfl (fun _ => rfl) (fun _ => rfl) (h4.lead hL)
  refine ⟨h1.trans m1, [⟨.Token .Value, (place base u).read⟩] ++ P1, _, by simpa using m3, ?_, .value m5⟩
  exact (Emit.one (a := (place base (b! ':' :: u)).read) (n := (place base u).read) (.Token .Value) (by omega) (Nat.le_refl _)).append m4 (Nat.le_refl _)

theorem under_of {p : Spot} {cxt : Context} {s : Str} (hf : FitsSpot p cxt) (hb : cxt.isBlock = true) (ho : p.Ok base s) : Under cxt (columnOf base s) false := by
  refine ⟨hb, hf.sound, ?_⟩
  simp only [Bool.false_eq_true, ↓reduceIte]
  cases hl : cxt.level with
  | none => rfl
  | some n =>
    have := ho.1 (hf.block.trans hb) n (hf.level.trans hl)
    simpa [levelLt] using this

theorem bcoll_seq {p : Spot} {kind : NodeKind} {a : Option Str} {tg : Option (Str × Str)} {s t : Str} {es : List EventData}
    (h : GBSeq opts base tags (columnOf base s) false true s es t) :
    GBColl opts base tags p kind a tg s (.SequenceStart { anchor := a, tag := tg, kind } :: es) t := by
  intro X cxt out hf hb ho hr
  obtain ⟨h1, h2, P, T, h3, h4, h5⟩ := h X cxt cxt 0 out (under_of hf hb ho) (by simp [Outer]) (fun _ => calm_of hf.sound (hf.ok s ho)) (by simp) hr
  exact ⟨h1, h2 rfl, P, _, h3, h4, fun ps hp hu => .blockSeq kind hp hu h5⟩

theorem bcoll_map {p : Spot} {kind : NodeKind} {a : Option Str} {tg : Option (Str × Str)} {s t : Str} {es : List EventData}
    (h : GBMap opts base tags (columnOf base s) p true s es t) :
    GBColl opts base tags p kind a tg s (.MappingStart { anchor := a, tag := tg, kind } :: es) t := by
  intro X cxt out hf hb ho hr
  obtain ⟨h1, h2, P, T, h3, h4, h5⟩ := h X cxt cxt 0 out (under_of hf hb ho) (by simp [Outer]) hf (fun _ => ho) hr
  exact ⟨h1, h2 rfl, P, _, h3, h4, fun ps hp hu => .blockMap kind hp hu h5⟩

theorem usable_none : Usable tags none := fun _ _ h => by cases h

theorem bnode_inline (hx : opts.extendable = false) (hl : opts.lazy = false) (hA : Ascii base) {p : Spot} {a : Bool} {kind : NodeKind} {s r t : Str}
    {es : List EventData} (h : Inline base tags p kind s es r) (he : LineEnds r t) : GBNode opts base tags p a kind s es t := by
  intro X cxt al key out hf hb hst hs ho hk _ hL
  obtain ⟨h1, P, T, h2, h3, h4⟩ := inline_reads hx hl hA h cxt al key out hf hs ho hk
  obtain ⟨g1, g2, g3⟩ := (h2.lead hL).ends hA he
  exact ⟨h1.trans g1, h1.later g2, P, T, g3, h3.mono (by omega) g1.read_le, h4 true⟩

/-- A block scalar is fetched. -/
theorem literal_fetch (hx : opts.extendable = false) (hl : opts.lazy = false) (hA : Ascii base) {s r : Str} {c : Scalar} {n : Nat} (hs : On base s)
    {al : Bool} {key : Option KeySave} {cxt : Context} {out : List TokenEntry} (hb : cxt.isBlock = true) (hn : cxt.level.getD 0 = n)
    (h : BlockWord n s c r) (hk : Loose key) :
    Passes base s r ∧ lineOf base s < lineOf base r ∧ Scan.fetchNext opts (st base s al key cxt out) =
      (.ok (), st base r true none cxt (out ++ [⟨.Token (.Scalar c.data c.style), (place base r).read⟩])) := by
  obtain ⟨fold, w, rfl⟩ : ∃ (fold : Bool) (w : Str), s = (if fold then b! '>' else b! '|') :: w := by
    cases h with | mk => exact ⟨_, _, rfl⟩
  obtain ⟨c', h1, rfl, h2, h3⟩ := Blocks.word_scans (m := place base ((if fold then b! '>' else b! '|') :: w)) hx hl h (hs.ascii hA)
  obtain ⟨e1, e2⟩ := hs.passes (m := c'.stats) h2
  refine ⟨e2, by unfold lineOf; rw [← e1]; exact h3, ?_⟩
  rw [fetchNext_run hx (by simp)]
  have hd : Scan.dispatch cxt (columnOf base ((if fold then b! '>' else b! '|') :: w)) ((if fold then b! '>' else b! '|') :: w) = .block fold := by
    unfold Scan.dispatch
    cases fold <;> simp [startsWith, startsMarker, hb]
  rw [hd]
  show Scan.fetchBlockScalar opts fold _ = _
  unfold Scan.fetchBlockScalar
  rw [bind_run (removeKey_run hk), bind_run (allow_st true)]
  obtain ⟨p, hp⟩ := e2.suffix
  have hbd := boundary_suffix hp (hs.ascii hA)
  simp only [bind, SO.bind, Scan.get, SO.get, Scan.sub, SO.lift, Scan.commit, Scan.enqueue, SO.modify, st, hn, h1, hbd, ↓reduceIte, e1]

theorem leaf_literal (hx : opts.extendable = false) (hl : opts.lazy = false) (hA : Ascii base) {p : Spot} {kind : NodeKind} {s r t : Str}
    {es : List EventData} (h : BlockLeaf base tags p kind s es r) (hg : Gap r t) {X : SS} {cxt : Context} {al : Bool} {key : Option KeySave}
    {out : List TokenEntry} (hf : FitsSpot p cxt) (hb : cxt.isBlock = true) (hs : On base s) (ho : p.Ok base s) (hk : Soft (place base s) key)
    (hL : Leads opts X (st base s al key cxt out)) :
    Passes base s t ∧ Later base s t ∧ ∃ P T, Ready opts base false X t cxt (out ++ P) ∧
      Emit ((place base s).read + 1) (place base t).read P T ∧ TNode tags true kind T es := by
  -- the scalar itself
  have go : ∀ {w : Str} {c : Scalar} {al : Bool} {key : Option KeySave} {out : List TokenEntry}, BlockWord (p.level.getD 0) w c r → On base w → p.Ok base w →
      Soft (place base w) key → Leads opts X (st base w al key cxt out) → Passes base w t ∧ lineOf base w < lineOf base t ∧ ∃ P,
        Ready opts base false X t cxt (out ++ P) ∧ Emit ((place base w).read + 1) (place base t).read P [.Token (.Scalar c.data c.style)] := by
    intro w c al key out hw hon hok hk hL
    obtain ⟨h1, h2, h3⟩ := literal_fetch (al := al) (out := out) hx hl hA hon hb (by rw [← hf.level]) hw hk.loose
    have hat := (at_token (idle := true) hx hA (calm_of hf.sound (hf.ok w hok)) h3 (hon.pass h1) (.none _) (fun _ => .none)).lead hL
    obtain ⟨n, hg⟩ := hg
    obtain ⟨g1, g2⟩ := gap_passes hA hat.on hg
    obtain ⟨key', k1, k2, k3⟩ := hat.next n t hg
    refine ⟨h1.trans g1, by omega, _, ⟨hat.on.pass g1, _, key', k1, .inr ⟨by simp, .inr (k2 (.inl rfl))⟩, k3⟩, .one _ ?_ g1.read_le⟩
    have := h1.read
    have hlen : r.length < w.length := by
      obtain ⟨q, hq⟩ := h1.suffix
      cases q with
      | nil =>
        simp only [List.nil_append] at hq
        subst hq
        omega
      | cons => rw [hq]; simp; omega
    omega
  cases h with
  | mk hp hu hw =>
    cases hp with
    | none =>
      obtain ⟨h1, h2, P, h3, h4⟩ := go hw hs ho hk hL
      exact ⟨h1, .inr h2, P, _, h3, h4, .scalar (ps := []) true kind .none hu (.eager _ _)⟩
    | some hp hn =>
      obtain ⟨ps, hc, ht, -⟩ := NodeProps.chain hp
      have hok := hf.ok s ho
      obtain ⟨h1, P, h2, h3⟩ := hc.soft (idle := false) (al := al) (key := key) (out := out) hx hl hA hf hs (calm_of hf.sound hok) (fun _ => due_of_ok hok) hk (by simp)
      have h2 := h2.lead hL
      obtain ⟨⟨n, hg'⟩, ho'⟩ := hn
      obtain ⟨g1, g2⟩ := gap_passes hA h2.on hg'
      obtain ⟨key', k1, k2, k3⟩ := h2.next n _ hg'
      obtain ⟨q1, q2, P', q3, q4⟩ := go hw (h2.on.pass g1) ho' k1 k3
      refine ⟨(h1.trans g1).trans q1, (h1.trans g1).later (.inr q2), P ++ P', _, by simpa using q3, h3.append q4 ?_, .scalar true kind ht hu (.eager _ _)⟩
      have := g1.read_le
      omega

theorem bnode_literal (hx : opts.extendable = false) (hl : opts.lazy = false) (hA : Ascii base) {p : Spot} {a : Bool} {kind : NodeKind} {s r t : Str}
    {es : List EventData} (h : BlockLeaf base tags p kind s es r) (hg : Gap r t) : GBNode opts base tags p a kind s es t := by
  intro X cxt al key out hf hb hst hs ho hk _ hL
  obtain ⟨h1, h2, P, T, h3, h4, h5⟩ := leaf_literal hx hl hA h hg hf hb hs ho hk hL
  exact ⟨h1, h2, P, T, h3, h4.mono (Nat.le_succ _) (Nat.le_refl _), h5⟩

theorem bnode_coll {p : Spot} {kind : NodeKind} {s t : Str} {es : List EventData} (h : GBColl opts base tags p kind none none s es t) :
    GBNode opts base tags p true kind s es t := by
  intro X cxt al key out hf hb hst hs ho hk ha hL
  obtain ⟨h1, h2, P, T, h3, h4, h5⟩ := h X cxt out hf hb ho ⟨hs, al, key, hk, .inr ⟨ha rfl, .inl rfl⟩, hL⟩
  rw [after_of hst] at h3
  exact ⟨h1, h2, P, T, h3, h4, by simpa using h5 [] .none usable_none⟩

/-- Properties in a line of their own. -/
theorem props_lead (hx : opts.extendable = false) (hl : opts.lazy = false) (hA : Ascii base) {p : Spot} {s r u : Str} {an : Option Str}
    {tg : Option (Str × Str)} (hp : NodeProps base p s an tg r) (hnl : NewLine r u) {X : SS} {cxt : Context} {al : Bool} {key : Option KeySave}
    {out : List TokenEntry} (hf : FitsSpot p cxt) (hs : On base s) (ho : p.Ok base s) (hk : Soft (place base s) key)
    (hL : Leads opts X (st base s al key cxt out)) :
    Passes base s u ∧ lineOf base s < lineOf base u ∧ ∃ P ps, Ready opts base true X u cxt (out ++ P) ∧
      Emit ((place base s).read + 1) (place base u).read P ps ∧ TProps ps an tg := by
  obtain ⟨ps, hc, ht, -⟩ := NodeProps.chain hp
  have hok := hf.ok s ho
  obtain ⟨h1, P, h2, h3⟩ := hc.soft (idle := false) (al := al) (key := key) (out := out) hx hl hA hf hs (calm_of hf.sound hok) (fun _ => due_of_ok hok) hk (by simp)
  obtain ⟨g1, g2, key', g3, g4, g5⟩ := (h2.lead hL).line hA hnl
  exact ⟨h1.trans g1, Nat.lt_of_le_of_lt h1.line_le g2, P, ps, ⟨h2.on.pass g1, true, key', g3, .inr ⟨rfl, .inl rfl⟩, g5⟩, h3.mono (Nat.le_refl _) g1.read_le, ht⟩

theorem bnode_props (hx : opts.extendable = false) (hl : opts.lazy = false) (hA : Ascii base) {p : Spot} {a : Bool} {kind : NodeKind} {s r u t : Str}
    {an : Option Str} {tg : Option (Str × Str)} {es : List EventData} (hp : NodeProps base p s an tg r) (hu : Usable tags tg) (hnl : NewLine r u)
    (hou : p.Ok base u) (h : GBColl opts base tags p kind an tg u es t) : GBNode opts base tags p a kind s es t := by
  intro X cxt al key out hf hb hst hs ho hk _ hL
  obtain ⟨h1, h2, P, ps, h3, h4, h5⟩ := props_lead hx hl hA hp hnl hf hs ho hk hL
  obtain ⟨g1, g2, P', T, g3, g4, g5⟩ := h X cxt _ hf hb hou h3
  rw [after_of hst] at g3
  refine ⟨h1.trans g1, h1.later g2, P ++ P', _, by simpa using g3, ?_, g5 ps h5 hu⟩
  exact (h4.mono (Nat.le_succ _) (Nat.le_refl _)).append g4 (Nat.le_refl _)

theorem bpart_leftOut (hA : Ascii base) {p : Spot} {map a : Bool} {kind : NodeKind} {u t : Str} (h : LineEnds u t) :
    GBPart opts base tags p map a kind u [leftOut kind] t := by
  intro X cxt al out hf hb hst _ _ ha
  obtain ⟨h1, h2, h3⟩ := ha.ends hA h
  exact ⟨h1, h2, [], [], by simpa using h3, .nil h1.read_le, .leftOut _ _⟩

theorem bpart_here (hA : Ascii base) {p : Spot} {map a : Bool} {kind : NodeKind} {u s t : Str} {v : List EventData} (hn : NextAt base p u s)
    (h : GBNode opts base tags p a kind s v t) : GBPart opts base tags p map a kind u v t := by
  intro X cxt al out hf hb hst _ hal ha
  obtain ⟨⟨n, hg⟩, ho⟩ := hn
  obtain ⟨key, g1, g2, g3⟩ := ha.next n _ hg
  have hg' := (gap_passes hA ha.on hg).1
  obtain ⟨k1, k2, P, T, k3, k4, k5⟩ := h X cxt _ key out hf hb hst (ha.on.pass hg') ho g1 (fun h => by simp [hal h]) g3
  exact ⟨hg'.trans k1, hg'.later k2, P, T, k3, k4.mono hg'.read_le (Nat.le_refl _), .node k5⟩

theorem bpart_under (hA : Ascii base) {p : Spot} {map a : Bool} {kind : NodeKind} {u s t : Str} {v : List EventData} (hl : NewLine u s)
    (ho : p.Ok base s) (h : GBNode opts base tags p true kind s v t) : GBPart opts base tags p map a kind u v t := by
  intro X cxt al out hf hb hst _ _ ha
  obtain ⟨h1, h2, key, g1, g2, g3⟩ := ha.line hA hl
  obtain ⟨k1, k2, P, T, k3, k4, k5⟩ := h X cxt true key out hf hb hst (ha.on.pass h1) ho g1 (fun _ => rfl) g3
  exact ⟨h1.trans k1, h1.later k2, P, T, k3, k4.mono h1.read_le (Nat.le_refl _), .node k5⟩

/-- A sequence that is not indented. -/
theorem zero_under {p : Spot} {cxt : Context} {s : Str} (hf : FitsSpot p cxt) (hb : cxt.isBlock = true) (hm : Scan.lastIsMap cxt = true)
    (hc : p.level = some (columnOf base s)) : Under cxt (columnOf base s) true ∧ Calm base cxt s := by
  have hl : cxt.level = some (columnOf base s) := by rw [← hf.level, hc]
  refine ⟨⟨hb, hf.sound, by simp [hl, hm]⟩, fun _ _ => ?_, fun n hn => ?_⟩
  · unfold Context.level at hl
    split at hl
    · simp at hl; omega
    · cases hl
  · cases hi : cxt.indents with
    | nil => simp [zeroLine, hi] at hn
    | cons e es =>
      have : e.kind = .BlockMappingStart := by simpa [Scan.lastIsMap, hi] using hm
      simp [zeroLine, hi, this] at hn

theorem bpart_zero (hA : Ascii base) {p : Spot} {a : Bool} {kind : NodeKind} {u s t : Str} {es : List EventData} (hl : NewLine u s)
    (h : GBSeq opts base tags (columnOf base s) true true s es t) (hc : p.level = some (columnOf base s)) :
    GBPart opts base tags p true a kind u (.SequenceStart { anchor := none, tag := none, kind } :: es) t := by
  intro X cxt al out hf hb hst hm _ ha
  obtain ⟨h1, h2, key, g1, g2, g3⟩ := ha.line hA hl
  obtain ⟨z1, z2⟩ := zero_under hf hb (hm rfl) hc
  obtain ⟨k1, k2, P, T, k3, k4, k5⟩ := h X cxt cxt 0 out z1 (by simp [Outer]) (fun _ => z2) (by simp) ⟨ha.on.pass h1, true, key, g1, .inr ⟨rfl, .inl rfl⟩, g3⟩
  rw [after_of hst] at k3
  exact ⟨h1.trans k1, h1.later (k2 rfl), P, _, k3, k4.mono h1.read_le (Nat.le_refl _), .node (.blockSeq (ps := []) kind .none usable_none k5)⟩

theorem bpart_propsZero (hx : opts.extendable = false) (hl : opts.lazy = false) (hA : Ascii base) {p : Spot} {a : Bool} {kind : NodeKind} {u w r s t : Str}
    {an : Option Str} {tg : Option (Str × Str)} {es : List EventData} (hn : NextAt base p u w) (hp : NodeProps base p w an tg r) (hu : Usable tags tg)
    (hnl : NewLine r s) (h : GBSeq opts base tags (columnOf base s) true true s es t) (hc : p.level = some (columnOf base s)) :
    GBPart opts base tags p true a kind u (.SequenceStart { anchor := an, tag := tg, kind } :: es) t := by
  intro X cxt al out hf hb hst hm _ ha
  obtain ⟨⟨n, hg⟩, ho⟩ := hn
  obtain ⟨key, g1, g2, g3⟩ := ha.next n _ hg
  have hg' := (gap_passes hA ha.on hg).1
  obtain ⟨h1, h2, P, ps, h3, h4, h5⟩ := props_lead hx hl hA hp hnl hf (ha.on.pass hg') ho g1 g3
  obtain ⟨z1, z2⟩ := zero_under hf hb (hm rfl) hc
  obtain ⟨k1, k2, P', T, k3, k4, k5⟩ := h X cxt cxt 0 _ z1 (by simp [Outer]) (fun _ => z2) (by simp) h3
  rw [after_of hst] at k3
  have := hg'.read_le
  refine ⟨(hg'.trans h1).trans k1, (hg'.trans h1).later (k2 rfl), P ++ P', _, by simpa using k3, (h4.mono (by omega) (Nat.le_refl _)).append k4 (Nat.le_refl _), .node (.blockSeq kind h5 hu k5)⟩

/-! ## All of them -/

theorem block_reads (hx : opts.extendable = false) (hl : opts.lazy = false) (hA : Ascii base) {p : Spot} {kind : NodeKind} {a : Option Str}
    {tg : Option (Str × Str)} {s t : Str} {es : List EventData} (h : BlockColl base tags p kind a tg s es t) : GBColl opts base tags p kind a tg s es t := by
  refine BlockColl.rec
    (motive_1 := fun p a kind s es t _ => GBNode opts base tags p a kind s es t)
    (motive_2 := fun p kind a tg s es t _ => GBColl opts base tags p kind a tg s es t)
    (motive_3 := fun c zero first s es t _ => GBSeq opts base tags c zero first s es t)
    (motive_4 := fun c p first s es t _ => GBMap opts base tags c p first s es t)
    (motive_5 := fun c s es t _ => GBValue opts base tags c s es t)
    (motive_6 := fun p map a kind u v t _ => GBPart opts base tags p map a kind u v t)
    ?_ ?_ ?_ ?_ ?_ ?_ ?_ ?_ ?_ ?_ ?_ ?_ ?_ ?_ ?_ ?_ ?_ ?_ h
  · intro p a kind s r t es h he
    exact bnode_inline hx hl hA h he
  · intro p kind s t es _ ih
    exact bnode_coll ih
  · intro p a kind s r u t an tg es hp hu hnl ho _ ih
    exact bnode_props hx hl hA hp hu hnl ho ih
  · intro p a kind s r t es h hg
    exact bnode_literal hx hl hA h hg
  · intro p kind a tg s t es _ ih
    exact bcoll_seq ih
  · intro p kind a tg s t es _ ih
    exact bcoll_map ih
  · intro c zero t h
    exact bseq_close hx h
  · intro c zero first u t t' v es hc hw _ _ ih ih'
    exact bseq_entry hx hA hc hw ih ih'
  · intro c p t h
    exact bmap_close hx h
  · intro c p first s r u t t' v v' es hc hk hg hf hw _ _ ih ih'
    exact bmap_implicit hx hl hA hc hk hg hf hw ih ih'
  · intro c p first u t t' t'' v v' es hc hw _ _ _ ih ih' ih''
    exact bmap_explicit hx hA hc hw ih ih' ih''
  · intro c t
    exact bvalue_leftOut
  · intro c u t v hc hw _ ih
    exact bvalue_value hx hA hc hw ih
  · intro p map a kind u t h
    exact bpart_leftOut hA h
  · intro p map a kind u s t v hn _ ih
    exact bpart_here hA hn ih
  · intro p map a kind u s t v hnl ho _ ih
    exact bpart_under hA hnl ho ih
  · intro p a kind u s t es hnl _ hc ih
    exact bpart_zero hA hnl ih hc
  · intro p a kind u w r s t an tg es hn hp hu hnl _ hc ih
    exact bpart_propsZero hx hl hA hn hp hu hnl ih hc

end Yary.Reading
