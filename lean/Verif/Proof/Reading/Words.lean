import Verif.Proof.Reading.Steps

/-! # Tokens of nodes -/

namespace Yary.Reading

open Spec

variable {opts : SFlags} {base : Str}

/-- The key is not due. -/
def Loose (key : Option KeySave) : Prop := ∀ k, key = some k → k.possible ≠ .Required

theorem Loose.none : Loose none := fun _ h => by cases h

theorem Loose.keeps {key : Option KeySave} (h : Loose key) (m : MStats) : Keeps m key := fun k h1 h2 => absurd h2 (h k h1)

theorem Loose.aged {key : Option KeySave} (h : Loose key) (m : MStats) : Loose (aged m key) := by
  intro k hk
  cases key with
  | none => cases hk
  | some k0 =>
    simp only [Reading.aged] at hk
    split at hk
    · simp only [Option.some.injEq] at hk
      rw [← hk]
      simp
    · simp only [Option.some.injEq] at hk
      rw [← hk]
      exact h k0 rfl

theorem removeKey_run {s : Str} {al : Bool} {key : Option KeySave} {cxt : Context} {out : List TokenEntry} (h : Loose key) :
    Scan.removeSavedKey (st base s al key cxt out) = (.ok (), st base s al none cxt out) :=
  removeSavedKey_run fun ⟨k, h1, h2⟩ => h k h1 h2

/-- Whether the value of a key at `s` would be due. -/
def due (base : Str) (cxt : Context) (s : Str) : Bool := cxt.isBlock && cxt.level == some (columnOf base s)

/-- The key that is saved at `s`. -/
def savedKey (base s : Str) (al : Bool) (cxt : Context) (key : Option KeySave) : Option KeySave :=
  if al then some (.new (place base s) (due base cxt s)) else key

theorem saveKey_st {s : Str} {al : Bool} {key : Option KeySave} {cxt : Context} {out : List TokenEntry} (h : al = true → Loose key) :
    Scan.saveKey (st base s al key cxt out) = (.ok (), st base s al (savedKey base s al cxt key) cxt out) := by
  unfold Scan.saveKey
  rw [bind_run (m := Scan.get) (a := st base s al key cxt out) (s1 := st base s al key cxt out) rfl]
  cases al with
  | true =>
    show (Scan.removeSavedKey >>= fun _ => _) (st base s true key cxt out) = _
    rw [bind_run (removeKey_run (h rfl))]
    rfl
  | false => rfl

theorem boundary_suffix {s r p : Str} (hs : s = p ++ r) (h : Ascii s) : isBoundary s (s.length - r.length) = true :=
  (around_suffix hs h).boundary (by rw [hs]; simp)

theorem finish_st (hA : Ascii base) {s r : Str} {m : MStats} {tok : MaybeToken} {al : Bool} {key : Option KeySave} {cxt : Context} {out : List TokenEntry}
    (hs : On base s) (hr : Reads ⟨s, {}⟩ ⟨r, m⟩) (hk : al = true → Loose key) :
    Passes base s r ∧ Scan.finish tok ⟨r, m⟩ (st base s al key cxt out) =
      (.ok (), st base r false (savedKey base s al cxt key) cxt (out ++ [⟨tok, (place base r).read⟩])) := by
  obtain ⟨h1, h2⟩ := hs.passes hr.add0
  simp only at h1
  refine ⟨h2, ?_⟩
  obtain ⟨p, hp⟩ := hr.suffix
  have hb := boundary_suffix hp (hs.ascii hA)
  simp only at hb
  unfold Scan.finish
  rw [bind_run (saveKey_st hk)]
  simp only [bind, SO.bind, Scan.get, SO.get, Scan.upd, SO.modify, Scan.commit, Scan.enqueue, st, hb, ↓reduceIte, h1]

/-- The token of a node at `s`, and what follows. -/
inductive WordTok (base : Str) (p : Spot) : Str → MaybeToken → Str → Prop where
  | anchor {s r : Str} {tok : Token} (h : AnchorText s tok r) : WordTok base p s (.Token tok) r
  | tag {s r : Str} {tok : Token} (h : TagText s tok r) : WordTok base p s (.Token tok) r
  | word {s r : Str} {c : Scalar} (h : Word base p s c r) : WordTok base p s (.Token (.Scalar c.data c.style)) r

theorem indent_eq {p : Spot} {cxt : Context} (h : p.level = cxt.level) : p.indent = levelSucc cxt.level := by
  unfold Spot.indent levelSucc
  rw [h]
  cases cxt.level <;> rfl

/-- A token of a node is fetched. -/
theorem word_fetch (hx : opts.extendable = false) (hl : opts.lazy = false) (hA : Ascii base) {p : Spot} {s r : Str} {tok : MaybeToken}
    (hs : On base s) (h : WordTok base p s tok r) {al : Bool} {key : Option KeySave} {cxt : Context} {out : List TokenEntry}
    (hb : p.block = cxt.isBlock) (hlv : p.level = cxt.level) (hk : al = true → Loose key) :
    Passes base s r ∧ r.length < s.length ∧ Scan.fetchNext opts (st base s al key cxt out) =
      (.ok (), st base r false (savedKey base s al cxt key) cxt (out ++ [⟨tok, (place base r).read⟩])) := by
  have hAs := hs.ascii hA
  -- what scans and finishes
  have fin : ∀ {f : Cur → Out ScanError (MaybeToken × Cur)} {m : MStats}, s ≠ [] →
      (Scan.run opts (Scan.dispatch cxt (columnOf base s) s) (st base s al key cxt out) = (Scan.sub {} f >>= fun r => Scan.finish r.1 r.2) (st base s al key cxt out)) →
      f ⟨s, {}⟩ = .ok (tok, ⟨r, m⟩) → Reads ⟨s, {}⟩ ⟨r, m⟩ →
      Passes base s r ∧ Scan.fetchNext opts (st base s al key cxt out) =
        (.ok (), st base r false (savedKey base s al cxt key) cxt (out ++ [⟨tok, (place base r).read⟩])) := by
    intro f m hne h1 h2 h3
    rw [fetchNext_run hx hne, h1]
    have : Scan.sub {} f (st base s al key cxt out) = (.ok (tok, ⟨r, m⟩), st base s al key cxt out) := by
      simp [Scan.sub, bind, SO.bind, Scan.get, SO.get, SO.lift, st, h2]
    rw [bind_run this]
    exact finish_st hA hs h3 hk
  cases h with
  | anchor h =>
    obtain ⟨isAlias, t, rfl⟩ : ∃ isAlias t, s = anchorMark isAlias :: t := by
      cases h with
      | anchor => exact ⟨false, _, rfl⟩
      | «alias» => exact ⟨true, _, rfl⟩
    obtain ⟨⟨m, h1⟩, -⟩ := scanAnchor_ok (m := {}) hx h
    obtain ⟨h2, name, hne, -, hnm, -⟩ := (scanAnchor_sat (P := True) (.inl trivial) (by cases isAlias <;> decide)).of_ok h1
    simp only at hnm
    have := fin (f := fun c => do let r ← scanAnchor opts isAlias c; .ok (.Token r.1, r.2)) (m := m) (by simp) (by
      have : Scan.dispatch cxt (columnOf base (anchorMark isAlias :: t)) (anchorMark isAlias :: t) = .anchor := by
        unfold Scan.dispatch anchorMark
        cases isAlias <;> simp [startsWith, startsMarker]
      rw [this]
      have hsw : startsWith (anchorMark isAlias :: t) b! '*' = isAlias := by cases isAlias <;> rfl
      simp only [Scan.run, Scan.fetchAnchor, Scan.sub, bind, SO.bind, Scan.get, SO.get, SO.lift, st, hsw, h1]
      rfl) (by simp [h1]) h2
    refine ⟨this.1, ?_, this.2⟩
    rw [hnm]
    simp
    omega
  | tag h =>
    obtain ⟨t, rfl⟩ : ∃ t, s = b! '!' :: t := by cases h with | tag hh => cases hh <;> exact ⟨_, rfl⟩
    generalize hz : b! '!' :: t = z at h
    cases h with
    | @tag hd w _ suffix hh' hv hd' hend =>
      have hhr : HeadOk r := fun b t h => .inl (hAs b (by rw [hz, h]; simp))
      obtain ⟨m, h1⟩ := scanNodeTag_eq hx (m := {}) hhr hend hh' hd' hv
      rw [← hz] at h1
      obtain ⟨-, h3, h4, -⟩ := (scanNodeTag_sat (P := True) (.inl trivial) (.inl trivial)).of_ok h1
      simp only at h3 h4
      have h4 : Reads ⟨b! '!' :: t, {}⟩ ⟨r, m⟩ := by
        rcases h4 with h4 | ⟨h4, -⟩
        · exact h4
        · obtain ⟨u, rfl⟩ := startsWith_iff.1 h4
          exact absurd hz.symm (hv u)
      have := fin (f := fun c => do let r ← scanNodeTag opts c; .ok (.Token r.1, r.2)) (m := m) (by simp) (by
        have : Scan.dispatch cxt (columnOf base (b! '!' :: t)) (b! '!' :: t) = .tag := by
          unfold Scan.dispatch
          simp [startsWith, startsMarker]
        rw [this]
        simp only [Scan.run, Scan.fetchTag, Scan.sub, bind, SO.bind, Scan.get, SO.get, SO.lift, st, h1]
        rfl) (by simp [h1]) h4
      rw [← hz]
      exact ⟨this.1, by simpa using h3, this.2⟩
  | word h =>
    cases h with
    | @quoted single t v _ h =>
      obtain ⟨q, hq, -⟩ := h.suffix
      obtain ⟨m, h1⟩ := scanFlowEager_ok hx (m := {}) h (around_suffix hq (Ascii.tail hAs))
      have hnb : isBreak (quoteMark single :: t) = false := by cases single <;> exact NoBrk.isBreak (by decide)
      obtain ⟨h2, h3, -⟩ := (scanFlowEager_sat (P := True) (.inl trivial) (.inl trivial) hnb).of_ok h1
      simp only at h3
      have h1' : scanFlow opts single ⟨quoteMark single :: t, {}⟩ = .ok (.Token (.Scalar v (quoteStyle single)), ⟨r, m⟩) := by
        unfold scanFlow
        rw [hl, h1]
        rfl
      have := fin (f := scanFlow opts single) (m := m) (by simp) (by
        have : Scan.dispatch cxt (columnOf base (quoteMark single :: t)) (quoteMark single :: t) = .quoted := by
          unfold Scan.dispatch quoteMark
          cases single <;> simp [startsWith, startsMarker]
        rw [this]
        simp only [Scan.run, Scan.fetchFlowScalar]
        rw [bind_run (m := Scan.get) (a := st base (quoteMark single :: t) al key cxt out) (s1 := st base (quoteMark single :: t) al key cxt out) rfl]
        cases single <;> rfl) h1' h2
      exact ⟨this.1, by simp; omega, this.2⟩
    | @plain _ v _ hbeg h =>
      have hne : s ≠ [] := by
        rintro rfl
        rcases hbeg.2 with ⟨b, t, h, -⟩ | ⟨b, t, h, -⟩ <;> cases h
      obtain ⟨hd, hbad⟩ := hbeg.dispatch cxt (columnOf base s)
      have hst := Closed.dispatch_plain hd (place base s) rfl
      obtain ⟨v', ⟨r', m⟩, e1, e2⟩ := scanPlainEager_ok (indent := levelSucc cxt.level) hx (c := ⟨s, place base s⟩) hAs hst hbad
      rw [hb, indent_eq hlv] at h
      obtain ⟨rfl, rfl⟩ := e2.unique h
      obtain ⟨h2, h3, -⟩ := (scanPlainEager_sat (P := True) (.inl trivial) hst).of_ok e1
      simp only at h3
      obtain ⟨hm, hon⟩ := hs.passes h2
      refine ⟨hon, h3, ?_⟩
      rw [fetchNext_run hx hne, hd]
      simp only [Scan.run, Scan.fetchPlainScalar]
      rw [bind_run (m := Scan.get) (a := st base s al key cxt out) (s1 := st base s al key cxt out) rfl]
      have hsub : Scan.sub (place base s) (scanPlain opts (levelSucc cxt.level) cxt.isBlock) (st base s al key cxt out) =
          (.ok (.Token (.Scalar v' .Plain), ⟨r', m⟩), st base s al key cxt out) := by
        have hp : scanPlain opts (levelSucc cxt.level) cxt.isBlock ⟨s, place base s⟩ = .ok (.Token (.Scalar v' .Plain), ⟨r', m⟩) := by
          unfold scanPlain
          rw [hl, e1]
          rfl
        simp [Scan.sub, bind, SO.bind, Scan.get, SO.get, SO.lift, st, hp]
      rw [bind_run (show Scan.sub (st base s al key cxt out).sc.stats (scanPlain opts (levelSucc (st base s al key cxt out).sc.context.level) (st base s al key cxt out).sc.context.isBlock) (st base s al key cxt out) = _ from hsub)]
      rw [bind_run (saveKey_st hk)]
      obtain ⟨q, hq⟩ := h2.suffix
      have hbd := boundary_suffix hq hAs
      simp only at hbd
      simp only [bind, SO.bind, Scan.upd, SO.modify, Scan.commit, Scan.enqueue, st, hbd, ↓reduceIte, hm]

end Yary.Reading
