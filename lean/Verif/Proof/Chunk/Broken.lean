import Verif.Proof.Chunk.Unread
import Verif.Proof.Scan.Order
import Verif.Proof.Client
import Verif.Proof.AgainRun

/-! # Sources that fail before they have ended -/

namespace Yary

open Spec

namespace Chunk

variable {size : Nat → Nat → Nat} {opts : SFlags} {e : IoError} {src : Source} {ow : Owned} {sc : Scanner}

/-- In a text that may go on no token ends the stream. -/
theorem scanTokens_noEnd (h : Sound ow sc) (hx : ow.exhausted = false) {r : Out ScanError Unit} {sc' : Scanner} {out : List TokenEntry}
    (hs : scanTokens { opts with extendable := !ow.exhausted } ow.head sc = (r, sc', out)) (hr : r ≠ .panic) : ∀ x ∈ out, x.marker ≠ .StreamEnd := by
  have hd : sc.state ≠ .Done := fun hd => by
    have := (h.done hd).1
    rw [hx] at this
    cases this
  have hv := validUtf8_drop h.valid h.boundary
  have hend := Yary.scanTokens_ends (P := True) (opts := { opts with extendable := !ow.exhausted }) (closed_noEnd [])
    (Static.noOffset (static_noEnd []) (closed_noEnd [])) (.inl trivial) h.valid h.boundary ⟨hv, nofun⟩ hd
  obtain ⟨h1, h2, -, -⟩ := scanTokens_sound h hs hr
  rw [hs] at hend
  cases r with
  | ok u =>
    rcases hend.2 with ⟨h3, -⟩ | hf
    · exact fun x hx => h3.2 x (by simpa using hx)
    · exfalso
      have h4 : sc'.state = .Done := by
        generalize hS : (⟨sc', ow.head.drop sc'.offset, out⟩ : SS) = S at hf
        have : sc' = S.sc := by rw [← hS]
        rw [this]
        cases hf with
        | intro => rfl
      have := (h1.done h4).1
      rw [hx] at this
      cases this
  | err e =>
    obtain ⟨⟨buf, h3, -⟩, -⟩ := hend
    exact fun x hx => h3.2 x (by simpa using hx)
  | panic => exact absurd rfl hr
  | diverge => exact absurd rfl h2

/-- The source has not failed yet, but will. -/
def Open (e : IoError) (src : Source) (ow : Owned) : Prop := ow.exhausted = false ∧ ∃ b, ow.source = (b, some e) :: src

theorem refresh_open (hsize : ∀ a b, 0 < size a b) (h : Open e src ow) {mark : Nat} {r : Out ReaderError Unit} {ow' : Owned}
    (hr : ow.refresh size mark = (r, ow')) (hn : r ≠ .err (.IO e)) : Open e src ow' := by
  obtain ⟨hx, b, hb⟩ := h
  unfold Owned.refresh at hr
  split at hr
  · cases hr
    exact ⟨hx, b, hb⟩
  · rw [hb] at hr
    unfold Source.take at hr
    dsimp only at hr
    by_cases hc : size ow.tails mark ≤ b.length
    · rw [if_pos hc] at hr
      have hne : (b.take (size ow.tails mark)).isEmpty = false := by
        have := hsize ow.tails mark
        cases b with
        | nil => simp at hc; omega
        | cons x b =>
          obtain ⟨n, hn⟩ : ∃ n, size ow.tails mark = n + 1 := ⟨_, (Nat.succ_pred_eq_of_pos this).symm⟩
          rw [hn]; rfl
      simp only at hr
      split at hr
      · cases hr
        exact ⟨hne, _, rfl⟩
      · cases hr
        exact ⟨hne, _, rfl⟩
    · rw [if_neg hc] at hr
      cases hr
      exact absurd rfl hn

/-- Then no token of a call ends the stream. -/
theorem ownedLoop_broken (hsize : ∀ a b, 0 < size a b) : ∀ fuel (ow : Owned) (sc : Scanner) (out : List TokenEntry), Sound ow sc → Open e src ow →
    (∀ x ∈ out, x.marker ≠ .StreamEnd) → (ownedLoop size opts fuel ow sc out).1 ≠ .panic → (ownedLoop size opts fuel ow sc out).1 ≠ .err (.IO e) →
    Sound (ownedLoop size opts fuel ow sc out).2.2.1 (ownedLoop size opts fuel ow sc out).2.2.2 ∧ Open e src (ownedLoop size opts fuel ow sc out).2.2.1 ∧
    ∀ x ∈ (ownedLoop size opts fuel ow sc out).2.1, x.marker ≠ .StreamEnd := by
  intro fuel
  induction fuel with
  | zero => intro ow sc out h ho hn _ _; exact ⟨h, ho, hn⟩
  | succ fuel ih =>
    intro ow sc out h ho hn
    have happ : ∀ {r : Out ScanError Unit} {sc' : Scanner} {more : List TokenEntry},
        scanTokens { opts with extendable := !ow.exhausted } ow.head sc = (r, sc', more) → r ≠ .panic → ∀ x ∈ out ++ more, x.marker ≠ .StreamEnd := fun hs hr x hx =>
      (List.mem_append.1 hx).elim (hn x) (scanTokens_noEnd h ho.1 hs hr x)
    rw [ownedLoop]
    split
    · next hs => exact fun _ _ => ⟨(scanTokens_sound h hs nofun).1, ho, happ hs nofun⟩
    · next sc1 more hs =>
      obtain ⟨h1, -, -, h2⟩ := scanTokens_sound h hs nofun
      have h3 := refresh_sound (size := size) h1 (h2 rfl)
      split
      · next hr =>
        rw [hr] at h3
        exact ih _ _ _ h3.1 (refresh_open hsize ho hr nofun) (happ hs nofun)
      · next e' _ hr =>
        rw [hr] at h3
        intro _ hne
        exact ⟨h3.1, refresh_open hsize ho hr (by simpa using hne), happ hs nofun⟩
      · exact fun h => absurd rfl h
      · next hr =>
        rw [hr] at h3
        exact h3.elim
    · next hs => exact fun _ _ => ⟨(scanTokens_sound h hs nofun).1, ho, happ hs nofun⟩
    · exact fun h => absurd rfl h
    · next hs => exact absurd rfl (scanTokens_sound h hs nofun).2.1

/-- No token that is handed out before the failure ends the stream. -/
theorem handed_broken (hsize : ∀ a b, 0 < size a b) {bytes : Str} {ops : List ROp}
    (h : ∀ x ∈ (runOps (ownedDrive size opts) ops (PeekReader.new ({ source := (bytes, some e) :: src }, {}))).1, x.2 ≠ .panic ∧ x.2 ≠ .err (.IO e)) :
    ∀ x ∈ handed (runOps (ownedDrive size opts) ops (PeekReader.new ({ source := (bytes, some e) :: src }, {}))).1, x.marker ≠ .StreamEnd := by
  obtain ⟨D, hD, hp⟩ := reader_keeps (drive := ownedDrive size opts) (K := fun o => o ≠ .panic ∧ o ≠ .err (.IO e))
    (J := fun s D => Sound s.1 s.2 ∧ Open e src s.1 ∧ ∀ x ∈ D, x.marker ≠ .StreamEnd) (src := ({ source := (bytes, some e) :: src }, {}))
    (fun s D o b s' hJ hd hK => by
      have := ownedLoop_broken (opts := opts) hsize (s.1.source.reads + 3) s.1 s.2 [] hJ.1 hJ.2.1 nofun
      unfold ownedDrive at hd
      rw [hd] at this
      obtain ⟨h1, h2, h3⟩ := this hK.1 hK.2
      refine ⟨h1, h2, fun x hx => ?_⟩
      rcases List.mem_append.1 hx with hx | hx
      · exact hJ.2.2 x hx
      · exact h3 x (mem_deliver.1 hx))
    ⟨⟨rfl, rfl, nofun⟩, ⟨rfl, bytes, rfl⟩, nofun⟩ ops
    (fun x hx => ⟨fun hv => (h x hx).1 (void_eq_panic.1 hv), fun hv => (h x hx).2 (by
      obtain ⟨op, o⟩ := x
      cases o <;> simp_all [Out.void])⟩)
  exact fun x hx => hD.2.2 x (hp.subset hx)

end Chunk

namespace Broken

variable {σ : Type} {drive : Drive σ}

theorem step_streamEnd {m m' : StateMachine} {k : KEv} {d : Bool} (h : Step m (some k) m' d) (hk : k = .streamEnd) : d = true := by
  have hn : ∀ {kd : NodeKind} {a b : StateMachine}, ¬ NodeStep kd a .streamEnd b := fun h => by cases h
  subst hk
  cases h <;> first | rfl | (exact absurd (by assumption) hn)

/-- The end of the stream, or nothing. -/
def Over (o : Out ParseError (Option Event)) : Prop := o = .ok none ∨ ∃ ev, o = .ok (some ev) ∧ ev.data = .StreamEnd

theorem loop_over {fuel n : Nat} {s s' : PS σ} {o : Out ParseError (Option Event)} (h : Parser.nextEventLoop drive fuel n s = (o, s')) (ho : Over o) :
    s'.parser.done = true := by
  induction n generalizing s with
  | zero => cases h; rcases ho with h | ⟨_, h, -⟩ <;> cases h
  | succ n ih =>
    cases hd : s.parser.done with
    | true =>
      simp [Parser.nextEventLoop, bind, SO.bind, SO.get, hd, pure, SO.pure] at h
      rw [← h.2, hd]
    | false =>
      rw [Parser.nextEventLoop_succ hd] at h
      cases hs : Parser.stateTransition drive fuel s with
      | mk o1 s1 =>
        rw [hs] at h
        cases o1 with
        | ok ev' =>
          cases ev' with
          | none => exact ih h
          | some ev' =>
            cases h
            rcases ho with ho | ⟨ev, ho, hev⟩
            · cases ho
            · cases ho
              have h1 := (Parser.wp_ok (Parser.stateTransition_spec Parser.srcOk_true hd) hs).step
              exact step_streamEnd h1 (by dsimp only; rw [hev]; rfl)
        | _ => cases h; rcases ho with h | ⟨_, h, -⟩ <;> cases h

/-- While no token ends the stream, neither does a call. -/
theorem calls_open {K : Out ReaderError (Option TokenEntry) → Prop} (hok : ∀ t, K (.ok t)) {s0 : PeekReader σ}
    (hN : ∀ ops, (∀ x ∈ (runOps drive ops s0).1, K x.2) → ∀ x ∈ handed (runOps drive ops s0).1, x.marker ≠ .StreamEnd)
    {s s' : PS σ} {os : List (Out ParseError (Option Event))} (h : Calls drive s os s')
    (hp : ∀ o ∈ os, o ≠ .panic ∧ ∀ e, o = .err (.ofReader e) → K (.err e)) {ops0 : List ROp} (h0 : (runOps drive ops0 s0).2 = s.tokens)
    (hK : ∀ x ∈ (runOps drive ops0 s0).1, K x.2) (hd : s.parser.done = false) : ∀ o ∈ os, ¬ Over o := by
  induction h generalizing ops0 with
  | nil => exact nofun
  | @cons s s1 s2 o os fuel h hdv _ ih =>
    obtain ⟨ops, h1, h2, h3⟩ := Client.nextEvent (drive := drive) fuel s
    rw [h] at h1 h2 h3
    dsimp only at h1 h2 h3
    have hq := hp o (by simp)
    have hk : ∀ x ∈ (runOps drive ops s.tokens).1, K x.2 := by
      have hall : ∀ {l : List (ROp × Out ReaderError (Option TokenEntry))}, AllOk l → ∀ x ∈ l, K x.2 := fun hl x hx => by
        obtain ⟨_, e⟩ := hl x hx
        rw [e]; exact hok _
      generalize (runOps drive ops s.tokens).1 = l at h2
      clear h h1 h3
      intro x hx
      cases h2 with
      | ok ha => exact hall ha x hx
      | own _ ha => exact hall ha x hx
      | raised ha =>
        rcases List.mem_append.1 hx with hx | hx
        · exact hall ha x hx
        · simp only [List.mem_singleton] at hx
          subst hx; exact hq.2 _ rfl
      | panic => exact absurd rfl hq.1
      | diverge => exact absurd rfl hdv
    have h4 : (runOps drive (ops0 ++ ops) s0).2 = s1.tokens := by rw [Client.ops_append, h0, h1]
    have h5 : ∀ x ∈ (runOps drive (ops0 ++ ops) s0).1, K x.2 := by
      rw [Client.ops_append, h0]
      exact fun x hx => (List.mem_append.1 hx).elim (hK x) (hk x)
    have hd1 : s1.parser.done = false := by
      rcases h3 with h3 | ⟨-, t, ht, hw⟩
      · rw [h3, hd]
      · refine absurd ?_ (hN _ h5 t (by rw [Client.ops_append, h0, Client.handed_append]; exact List.mem_append_right _ ht))
        simp [TokenEntry.marker, hw, MaybeToken.marker, Marker.ofToken]
    intro o' ho' hov
    rcases List.mem_cons.1 ho' with rfl | ho'
    · have := loop_over h hov
      rw [hd1] at this
      cases this
    · exact ih (fun o ho => hp o (List.mem_cons_of_mem _ ho)) h4 h5 hd1 o' ho' hov

end Broken

end Yary
