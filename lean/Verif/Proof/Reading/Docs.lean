import Verif.Proof.Reading.Block

/-! # Documents are read -/

namespace Yary.Reading

open Spec

variable {opts : SFlags} {base : Str}

/-- The context between documents. -/
def Root (lvl : Option Nat) (cxt : Context) : Prop := (lvl = none ∧ cxt = {}) ∨ (lvl = some 0 ∧ cxt = { started := true })

theorem Root.block {lvl : Option Nat} {cxt : Context} (h : Root lvl cxt) : cxt.isBlock = true := by
  rcases h with ⟨-, rfl⟩ | ⟨-, rfl⟩ <;> rfl

theorem Root.flat {lvl : Option Nat} {cxt : Context} (h : Root lvl cxt) : flat cxt = cxt := by
  rcases h with ⟨-, rfl⟩ | ⟨-, rfl⟩ <;> rfl

theorem Root.indents {lvl : Option Nat} {cxt : Context} (h : Root lvl cxt) : cxt.indents.length = 0 := by
  rcases h with ⟨-, rfl⟩ | ⟨-, rfl⟩ <;> rfl

theorem Root.after {lvl : Option Nat} {cxt : Context} (h : Root lvl cxt) : Root (some 0) (after cxt) := by
  rcases h with ⟨-, rfl⟩ | ⟨-, rfl⟩ <;> exact .inr ⟨rfl, rfl⟩

theorem Root.fits {lvl : Option Nat} {cxt : Context} (h : Root lvl cxt) : FitsSpot ⟨true, lvl, none⟩ cxt := by
  rcases h with ⟨rfl, rfl⟩ | ⟨rfl, rfl⟩
  · exact ⟨rfl, rfl, fun l hl => by simp [zeroLine] at hl, fun h => absurd rfl h⟩
  · exact ⟨rfl, rfl, fun l hl => by simp [zeroLine] at hl, fun _ => rfl⟩

/-- After a token, as it is found in `tail`. -/
theorem at_tail (hx : opts.extendable = false) (hA : Ascii base) {R : SS} {r : Str} {al1 : Bool} {cxt1 : Context} {out1 : List TokenEntry}
    (hf : tail opts R = (.ok (), st base r al1 none cxt1 out1)) (hr : On base r) : At opts base R r al1 true cxt1 out1 := by
  refine ⟨hr, fun n t hg => ⟨none, .none _, fun _ => .none, ?_⟩⟩
  intro F hF
  obtain ⟨-, -, h1⟩ := gap_run hx hA hr hg al1 none cxt1 out1
  refine ⟨_, hf, .inr (goes_of_ends (R := st base t (al1 || decide (n ≠ 0)) none cxt1 out1) rfl h1 ?_ hF)⟩
  exact expire_run (Loose.none.keeps _)

/-- `---` or `...`. -/
theorem marker_at (hx : opts.extendable = false) (hA : Ascii base) (start : Bool) {u : Str} {al : Bool} {key : Option KeySave} {lvl : Option Nat} {cxt : Context}
    {out : List TokenEntry} {X : SS} (hr : Root lvl cxt) (hs : On base ((if start then bytes! "---" else bytes! "...") ++ u))
    (hc : columnOf base ((if start then bytes! "---" else bytes! "...") ++ u) = 0) (hw : EndsHere u) (hk : Loose key)
    (hL : Leads opts X (st base ((if start then bytes! "---" else bytes! "...") ++ u) al key cxt out)) :
    Passes base ((if start then bytes! "---" else bytes! "...") ++ u) u ∧
      At opts base X u false true cxt (out ++ [⟨.Token (if start then .DocumentStart else .DocumentEnd), (place base u).read⟩]) := by
  obtain ⟨b, hb, ht⟩ : ∃ b : Byte, NoBrk b ∧ (if start then bytes! "---" else bytes! "...") ++ u = b :: b :: b :: u := by
    cases start
    · exact ⟨b! '.', by decide, rfl⟩
    · exact ⟨b! '-', by decide, rfl⟩
  have htl := tail_marker (opts := opts) (al := al) (key := key) (out := out) hx hr.block hc hw
  rw [hr.flat, hr.indents] at htl
  rw [ht] at hs hc hL htl ⊢
  have hread : Reads ⟨b :: b :: b :: u, place base (b :: b :: b :: u)⟩ ⟨u, (((place base (b :: b :: b :: u)).update 1 0 1).update 1 0 1).update 1 0 1⟩ :=
    .byte (not_break hb) (.byte (not_break hb) (.byte (not_break hb) (.refl _)))
  obtain ⟨h1, h2⟩ := hs.passes hread
  refine ⟨h2, At.lead hL (at_tail hx hA ?_ (hs.pass h2))⟩
  rw [htl]
  have hbd := boundary_suffix (s := b :: b :: b :: u) (p := [b, b, b]) (r := u) rfl (hs.ascii hA)
  have e1 : (b :: b :: b :: u).length - u.length = 3 := by simp; omega
  rw [e1] at hbd
  have e2 : (place base (b :: b :: b :: u)).update 3 0 3 = place base u := by rw [← h1]; simp [MStats.update, Nat.add_assoc]
  unfold markerRest
  rw [bind_run (removeKey_run hk), bind_run (allow_st false)]
  have hadv : Scan.advance 3 (st base (b :: b :: b :: u) false none cxt (out ++ ends base (b :: b :: b :: u) 0)) = (.ok (), st base u false none cxt out) := by
    unfold Scan.advance Cur.adv
    simp [st, hbd, e2, ends]
  rw [bind_run hadv]
  exact push_st _

theorem directive_suffix {s r : Str} {tok : Token} (h : DirectiveText s tok r) : ∃ p, s = p ++ r := by
  cases h with
  | @version s d e r n hs =>
    obtain ⟨p, hp⟩ := hs.suffix
    exact ⟨bytes! "%YAML" ++ (p ++ (d ++ b! '.' :: e)), by rw [hp]; simp⟩
  | @tag s s' h w r n n' pfx hs hh hb hs' =>
    obtain ⟨p, hp⟩ := hs.suffix
    obtain ⟨p', hp'⟩ := hs'.suffix
    exact ⟨bytes! "%TAG" ++ (p ++ (h ++ (p' ++ w))), by rw [hp, hp']; simp⟩

/-- A directive. -/
theorem directive_at (hx : opts.extendable = false) (hA : Ascii base) {s r : Str} {tok : Token} {al : Bool} {key : Option KeySave} {lvl : Option Nat} {cxt : Context}
    {out : List TokenEntry} {X : SS} (hr : Root lvl cxt) (hs : On base s) (hc : columnOf base s = 0) (h : DirectiveText s tok r) (hk : Loose key)
    (hL : Leads opts X (st base s al key cxt out)) :
    Passes base s r ∧ At opts base X r false true cxt (out ++ [⟨.Token tok, (place base r).read⟩]) := by
  obtain ⟨w, rfl⟩ : ∃ w, s = b! '%' :: w := by
    cases h with
    | version => exact ⟨_, rfl⟩
    | tag => exact ⟨_, rfl⟩
  have hsuf : ∃ p, b! '%' :: w = p ++ r := directive_suffix h
  obtain ⟨p, hp⟩ := hsuf
  have hAr : Around (b! '%' :: w) r := around_suffix hp (hs.ascii hA)
  obtain ⟨m', hd⟩ := directiveToken_ok (m := {}) hx h hAr
  obtain ⟨hrd, -, -⟩ := (directiveToken_sat (P := True) (opts := opts) (t := w) (m := {}) (.inl trivial) (.inl trivial)).of_ok hd
  obtain ⟨h1, h2⟩ := hs.passes hrd.add0
  refine ⟨h2, At.lead hL (at_tail hx hA ?_ (hs.pass h2))⟩
  refine (tail_directive hx hr.block hc).2 ⟨_, hd, ?_⟩
  rw [hr.flat, hr.indents]
  unfold directiveRest
  rw [bind_run (removeKey_run hk), bind_run (allow_st false),
    bind_run (m := Scan.get) (a := st base (b! '%' :: w) false none cxt (out ++ ends base (b! '%' :: w) 0)) (s1 := st base (b! '%' :: w) false none cxt (out ++ ends base (b! '%' :: w) 0)) rfl]
  have hbd := boundary_suffix hp (hs.ascii hA)
  have hcm : Scan.commit r ((place base (b! '%' :: w)).add m') (st base (b! '%' :: w) false none cxt (out ++ ends base (b! '%' :: w) 0)) =
      (.ok (), st base r false none cxt out) := by
    unfold Scan.commit
    simp only [st, hbd, ↓reduceIte, ends, List.replicate_zero, List.append_nil]
    simp only at h1
    rw [h1]
  show (Scan.commit r ((place base (b! '%' :: w)).add m') >>= fun _ => Scan.push tok) _ = _
  rw [bind_run hcm]
  exact push_st _

theorem directives_read (hx : opts.extendable = false) (hA : Ascii base) {v v' : Option Version} {tags tags' : List (Str × Str)} {s t : Str}
    (h : DirectiveLines base v tags s v' tags' t) {lvl : Option Nat} {cxt : Context} {X : SS} (hr : Root lvl cxt) :
    ∀ {out : List TokenEntry} {al : Bool} {key : Option KeySave} {D : List MaybeToken}, On base s → Soft (place base s) key →
      Leads opts X (st base s al key cxt out) → TDirectives D v tags →
      Passes base s t ∧ ∃ al' key' P D', Soft (place base t) key' ∧ Leads opts X (st base t al' key' cxt (out ++ P)) ∧
        Emit (place base s).read (place base t).read P D' ∧ TDirectives (D ++ D') v' tags' := by
  induction h with
  | nil =>
    intro out al key D hs hk hL hD
    exact ⟨.refl _, al, key, [], [], hk, by simpa using hL, .nil (Nat.le_refl _), by simpa using hD⟩
  | @version tags tags' v' major minor s r t t' hc h hg ht ih =>
    intro out al key D hs hk hL hD
    obtain ⟨h1, h2⟩ := directive_at hx hA hr hs hc h hk.loose hL
    obtain ⟨n, hg⟩ := hg
    have hp := (gap_passes hA h2.on hg).1
    obtain ⟨key1, g1, g2, g3⟩ := h2.next n t hg
    obtain ⟨k1, al', key', P, D', k2, k3, k4, k5⟩ := ih (h2.on.pass hp) g1 g3 (.version major minor hD)
    refine ⟨(h1.trans hp).trans k1, al', key', [⟨.Token (.VersionDirective major minor), (place base r).read⟩] ++ P, [.Token (.VersionDirective major minor)] ++ D', k2, by simpa using k3,
      (Emit.one (a := (place base s).read) (n := (place base r).read) _ h1.read_le (Nat.le_refl _)).append k4 hp.read_le, by simpa using k5⟩
  | @tag v v' tags tags' handle pfx s r t t' hc h hn hg ht ih =>
    intro out al key D hs hk hL hD
    obtain ⟨h1, h2⟩ := directive_at hx hA hr hs hc h hk.loose hL
    obtain ⟨n, hg⟩ := hg
    have hp := (gap_passes hA h2.on hg).1
    obtain ⟨key1, g1, g2, g3⟩ := h2.next n t hg
    obtain ⟨k1, al', key', P, D', k2, k3, k4, k5⟩ := ih (h2.on.pass hp) g1 g3 (.tag handle pfx hD hn)
    refine ⟨(h1.trans hp).trans k1, al', key', [⟨.Token (.TagDirective handle pfx), (place base r).read⟩] ++ P, [.Token (.TagDirective handle pfx)] ++ D', k2, by simpa using k3,
      (Emit.one (a := (place base s).read) (n := (place base r).read) _ h1.read_le (Nat.le_refl _)).append k4 hp.read_le, by simpa using k5⟩

variable {tags : List (Str × Str)}

theorem root_reads (hx : opts.extendable = false) (hl : opts.lazy = false) (hA : Ascii base) {lvl lvl' : Option Nat} {a : Bool} {s t : Str}
    {es : List EventData} (h : RootNode base tags lvl lvl' a s es t) {cxt : Context} (hr : Root lvl cxt) {X : SS} {al : Bool} {key : Option KeySave}
    {out : List TokenEntry} (hs : On base s) (ho : Spot.Ok base ⟨true, lvl, none⟩ s) (hk : Soft (place base s) key) (ha : a = true → al = true)
    (hL : Leads opts X (st base s al key cxt out)) :
    Passes base s t ∧ ∃ cxt' P T, Root lvl' cxt' ∧ Ready opts base false X t cxt' (out ++ P) ∧
      Emit (place base s).read (place base t).read P T ∧ TNode tags true .Root T es := by
  cases h with
  | inline h he =>
    obtain ⟨h1, P, T, h2, h3, h4⟩ := inline_reads hx hl hA h cxt al key out hr.fits hs ho hk
    obtain ⟨g1, g2, g3⟩ := (h2.lead hL).ends hA he
    exact ⟨h1.trans g1, cxt, P, T, hr, g3, h3.mono (by omega) g1.read_le, h4 true⟩
  | coll h =>
    obtain ⟨h1, h2, P, T, h3, h4, h5⟩ := block_reads hx hl hA h X cxt out hr.fits hr.block ho ⟨hs, al, key, hk, .inr ⟨ha rfl, .inl rfl⟩, hL⟩
    exact ⟨h1, _, P, T, hr.after, h3, h4, by simpa using h5 [] .none usable_none⟩
  | props hp hu hnl hou h =>
    obtain ⟨h1, h2, P, ps, h3, h4, h5⟩ := props_lead hx hl hA hp hnl hr.fits hs ho hk hL
    obtain ⟨g1, g2, P', T, g3, g4, g5⟩ := block_reads hx hl hA h X cxt _ hr.fits hr.block hou h3
    refine ⟨h1.trans g1, _, P ++ P', _, hr.after, by simpa using g3, ?_, g5 ps h5 hu⟩
    exact (h4.mono (Nat.le_succ _) (Nat.le_refl _)).append g4 (Nat.le_refl _)
  | literal h hg =>
    obtain ⟨h1, -, P, T, h3, h4, h5⟩ := leaf_literal hx hl hA h hg hr.fits hr.block hs ho hk hL
    exact ⟨h1, cxt, P, T, hr, h3, h4.mono (Nat.le_succ _) (Nat.le_refl _), h5⟩

theorem inline_ne (hx : opts.extendable = false) (hl : opts.lazy = false) (hA : Ascii base) {p : Spot} {kind : NodeKind} {s r : Str} {es : List EventData}
    (h : Inline base tags p kind s es r) {cxt : Context} (hf : FitsSpot p cxt) (hs : On base s) (ho : p.Ok base s) : s ≠ [] := by
  rintro rfl
  obtain ⟨h1, P, T, -, h3, -⟩ := inline_reads hx hl hA h cxt false none [] hf hs ho (.none _)
  have := h3.le
  rw [h1.nil] at this
  omega

theorem root_ne (hx : opts.extendable = false) (hl : opts.lazy = false) (hA : Ascii base) {lvl lvl' : Option Nat} {a : Bool} {s t : Str}
    {es : List EventData} (h : RootNode base tags lvl lvl' a s es t) {cxt : Context} (hr : Root lvl cxt) (hs : On base s)
    (ho : Spot.Ok base ⟨true, lvl, none⟩ s) : s ≠ [] := by
  cases h with
  | inline h => exact inline_ne hx hl hA h hr.fits hs ho
  | coll h =>
    cases h with
    | seq h => cases h with | entry => simp
    | map h =>
      generalize columnOf base s = c at h
      cases h with
      | implicit hc hk => exact inline_ne hx hl hA (.leaf hk) hr.fits hs ho
      | explicit => simp
  | props hp hu hnl =>
    rintro rfl
    obtain ⟨h1, -, P, ps, -, h4, -⟩ := props_lead (X := st base [] false none cxt []) hx hl hA hp hnl hr.fits hs ho (.none _) (.refl _)
    have := h4.le
    rw [h1.nil] at this
    omega
  | literal h hg =>
    rintro rfl
    obtain ⟨h1, -, P, T, -, h4, -⟩ := leaf_literal (X := st base [] false none cxt []) hx hl hA h hg hr.fits hr.block hs ho (.none _) (.refl _)
    have := h4.le
    rw [h1.nil] at this
    omega

theorem content_reads (hx : opts.extendable = false) (hl : opts.lazy = false) (hA : Ascii base) {lvl lvl' : Option Nat} {u t : Str}
    {es : List EventData} (h : DocContent base tags lvl lvl' u es t) {cxt : Context} (hr : Root lvl cxt) {X : SS}
    {out : List TokenEntry} (hu : At opts base X u false true cxt out) :
    Passes base u t ∧ ∃ cxt' P T, Root lvl' cxt' ∧ Ready opts base false X t cxt' (out ++ P) ∧
      Emit (place base u).read (place base t).read P T ∧ TContent tags T es := by
  cases h with
  | nothing h =>
    obtain ⟨h1, h2, h3⟩ := hu.ends hA h
    exact ⟨h1, cxt, [], [], hr, by simpa using h3, .nil h1.read_le, .nothing⟩
  | here hn h =>
    obtain ⟨⟨n, hg⟩, ho⟩ := hn
    obtain ⟨key, g1, g2, g3⟩ := hu.next n _ hg
    have hg' := (gap_passes hA hu.on hg).1
    obtain ⟨k1, cxt', P, T, k2, k3, k4, k5⟩ := root_reads hx hl hA h hr (hu.on.pass hg') ho g1 (by simp) g3
    exact ⟨hg'.trans k1, cxt', P, T, k2, k3, k4.mono hg'.read_le (Nat.le_refl _), .node k5⟩
  | under hnl ho h =>
    obtain ⟨h1, h2, key, g1, g2, g3⟩ := hu.line hA hnl
    obtain ⟨k1, cxt', P, T, k2, k3, k4, k5⟩ := root_reads hx hl hA h hr (hu.on.pass h1) ho g1 (fun _ => rfl) g3
    exact ⟨h1.trans k1, cxt', P, T, k2, k3, k4.mono h1.read_le (Nat.le_refl _), .node k5⟩

theorem docEnd_reads (hx : opts.extendable = false) (hA : Ascii base) {b : Bool} {t t' : Str} {y : List EventData} (h : DocEnd base b t y t')
    {lvl : Option Nat} {cxt : Context} (hr : Root lvl cxt) {X : SS} {out : List TokenEntry} (ht : Ready opts base false X t cxt out) :
    Passes base t t' ∧ ∃ P T, Ready opts base false X t' cxt (out ++ P) ∧ Emit (place base t).read (place base t').read P T ∧ TEnd b T y := by
  cases h with
  | implicit => exact ⟨.refl _, [], [], by simpa using ht, .nil (Nat.le_refl _), .implicit⟩
  | @explicit u t' hc hw h =>
    obtain ⟨hon, al, key, hk, -, hL⟩ := ht
    obtain ⟨h1, h2⟩ := marker_at hx hA false hr hon hc hw hk.loose hL
    obtain ⟨g1, g2, g3⟩ := h2.ends hA h
    exact ⟨h1.trans g1, _, _, g3, .one _ h1.read_le g1.read_le, .explicit⟩

theorem node_ne {b : Bool} {kind : NodeKind} {u : List MaybeToken} {v : List EventData} (h : TNode tags b kind u v) : u ≠ [] := by
  cases h <;> simp_all

theorem docs_ne {b : Bool} {ts : List MaybeToken} {es : List EventData} (h : TDocs b ts es) : ts ≠ [] := by
  induction h with
  | done => simp
  | bare h => simp [node_ne h]
  | explicit => simp

theorem docs_single {b : Bool} {es : List EventData} (h : TDocs b [.Token .StreamEnd] es) : es = [.StreamEnd] := by
  generalize hts : [MaybeToken.Token .StreamEnd] = ts at h
  cases h with
  | done => rfl
  | @bare u x ts v y es b h he t =>
    exfalso
    have h1 := node_ne h
    have h2 := docs_ne t
    have := congrArg List.length hts
    cases u with
    | nil => exact h1 rfl
    | cons a u =>
      cases ts with
      | nil => exact h2 rfl
      | cons b ts => simp at this
  | @explicit d u x ts v y es bare b version tags hd h he t =>
    exfalso
    have h2 := docs_ne t
    have := congrArg List.length hts
    cases ts with
    | nil => exact h2 rfl
    | cons b ts => simp at this; omega

theorem docs_read (hx : opts.extendable = false) (hl : opts.lazy = false) (hA : Ascii base) {lvl : Option Nat} {bare : Bool} {s : Str} {es : List EventData}
    (h : Docs base lvl bare s es) {X : SS} : ∀ {cxt : Context} {al : Bool} {key : Option KeySave} {out : List TokenEntry}, Root lvl cxt → On base s →
      Soft (place base s) key → (bare = true → s = [] ∨ al = true) → Leads opts X (st base s al key cxt out) →
      ∃ F P T n, Ends opts X F ∧ F.out = out ++ P ∧ Emit (place base s).read n P T ∧ TDocs bare T es := by
  induction h with
  | @done lvl bare =>
    intro cxt al key out hr hs hk _ hL
    have htl := tail_end (opts := opts) (base := base) (al := al) (key := key) (out := out) hr.block
    rw [hr.flat, hr.indents] at htl
    have hE : endRest (st base [] al key cxt (out ++ ends base [] 0)) =
        (.ok (), { st base [] al none cxt (out ++ [⟨.Token .StreamEnd, (place base []).read⟩]) with
          sc := { (st base [] al none cxt (out ++ [⟨.Token .StreamEnd, (place base []).read⟩])).sc with state := .Done } }) := by
      unfold endRest
      rw [bind_run (removeKey_run hk.loose)]
      simp [ends, bind, SO.bind, Scan.upd, SO.modify, Scan.push, st, Scan.get, SO.get, Scan.enqueue]
    refine ⟨_, [⟨.Token .StreamEnd, (place base []).read⟩], _, (place base []).read, hL _ ⟨_, htl.trans hE, .inl ⟨rfl, rfl⟩⟩, rfl, .one _ (Nat.le_refl _) (Nat.le_refl _), .done _⟩
  | @bare lvl lvl' b s t t' v y es ho h he ht ih =>
    intro cxt al key out hr hs hk hal hL
    have hal : al = true ∨ s = [] := (hal rfl).symm
    by_cases hne : s = []
    · exact absurd hne (root_ne hx hl hA h hr hs ho)
    · have hal : al = true := by
        rcases hal with h | h
        · exact h
        · exact absurd h hne
      obtain ⟨h1, cxt', P, T, h2, h3, h4, h5⟩ := root_reads hx hl hA h hr hs ho hk (fun _ => hal) hL
      obtain ⟨g1, P1, T1, g2, g3, g4⟩ := docEnd_reads hx hA he h2 h3
      obtain ⟨hon, al', key', k1, k2, k3⟩ := g2
      obtain ⟨F, P2, T2, n, q1, q2, q3, q4⟩ := ih h2 hon k1 (fun _ => k2.imp id (fun h => h.1)) k3
      exact ⟨F, P ++ (P1 ++ P2), T ++ (T1 ++ T2), n, q1, by simp [q2], h4.append (g3.append q3 (Nat.le_refl _)) (Nat.le_refl _), .bare h5 g4 q4⟩
  | @explicit lvl lvl' bare b s u t t' version tags v y es hd hc hw h he ht ih =>
    intro cxt al key out hr hs hk _ hL
    obtain ⟨d1, al1, key1, P0, D, d2, d3, d4, d5⟩ := directives_read (D := []) hx hA hd hr hs hk hL .nil
    obtain ⟨m1, m2⟩ := marker_at hx hA true hr (hs.pass d1) hc hw d2.loose d3
    obtain ⟨h1, cxt', P, T, h2, h3, h4, h5⟩ := content_reads hx hl hA h hr m2
    obtain ⟨g1, P1, T1, g2, g3, g4⟩ := docEnd_reads hx hA he h2 h3
    obtain ⟨hon, al', key', k1, k2, k3⟩ := g2
    obtain ⟨F, P2, T2, n, q1, q2, q3, q4⟩ := ih h2 hon k1 (fun _ => k2.imp id (fun h => h.1)) k3
    refine ⟨F, P0 ++ ([⟨.Token .DocumentStart, (place base u).read⟩] ++ (P ++ (P1 ++ P2))), D ++ ([.Token .DocumentStart] ++ (T ++ (T1 ++ T2))), n, q1, by simp [q2], ?_, ?_⟩
    · refine d4.append ((Emit.one (n := (place base u).read) _ m1.read_le (Nat.le_refl _)).append (h4.append (g3.append q3 (Nat.le_refl _)) (Nat.le_refl _)) (Nat.le_refl _)) (Nat.le_refl _)
    · exact TDocs.explicit (d := D) (u := T) (x := T1) (ts := T2) (by simpa using d5) h5 g4 q4

end Yary.Reading
