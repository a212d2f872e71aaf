import Verif.Proof.Chunk.Loop
import Verif.Proof.Scan.Order
import Verif.Spec.Chunks

/-! # The chunked reader -/

namespace Yary.Chunk

open Scan Spec

variable {size : Nat → Nat → Nat} {err : Option IoError} {text rem : Str} {src : Source}

/-- What is still to come from the source. -/
inductive Feeds : Source → Str → Option IoError → Prop where
  | all (rem : Str) : Feeds [(rem, none)] rem none
  | ended : Feeds [] [] none
  | part (bytes rest : Str) (e : IoError) (src : Source) : Feeds ((bytes, some e) :: src) (bytes ++ rest) (some e)

theorem Feeds.of_supplies (h : Supplies src text err) : Feeds src text err := by
  cases h with
  | all text => exact .all text
  | part bytes rest e src => exact .part bytes rest e src

/-- What reading from the source gives. -/
theorem Feeds.take (h : Feeds src rem err) {cap : Nat} (hc : 0 < cap) :
    (∃ bytes src' rem', Source.take cap src = (.ok bytes, src') ∧ rem = bytes ++ rem' ∧ Feeds src' rem' err ∧
      (bytes = [] → rem' = []) ∧ (rem' ≠ [] → cap ≤ bytes.length) ∧ (bytes ≠ [] → src'.reads < src.reads)) ∨
    ∃ e src', Source.take cap src = (.err (.IO e), src') ∧ err = some e := by
  cases h with
  | all rem =>
    left
    rw [Source.take]
    by_cases h : cap ≤ rem.length
    · rw [if_pos h]
      refine ⟨_, _, rem.drop cap, rfl, (List.take_append_drop _ _).symm, .all _, ?_, ?_, ?_⟩
      · intro h0
        have := congrArg List.length h0
        rw [List.length_take, List.length_nil] at this
        omega
      · intro _
        simp [h]
      · intro _
        simp only [Source.reads, List.map_cons, List.map_nil, List.sum_cons, List.sum_nil, List.length_drop]
        omega
    · rw [if_neg h]
      refine ⟨_, _, [], rfl, (List.append_nil _).symm, .ended, fun _ => rfl, fun h => absurd rfl h, fun _ => ?_⟩
      simp [Source.reads]
  | ended => exact .inl ⟨[], [], [], rfl, rfl, .ended, fun _ => rfl, fun h => absurd rfl h, fun h => absurd rfl h⟩
  | part bytes rest e src =>
    rw [Source.take]
    by_cases h : cap ≤ bytes.length
    · rw [if_pos h]
      refine .inl ⟨_, _, bytes.drop cap ++ rest, rfl, ?_, .part _ _ _ _, ?_, ?_, ?_⟩
      · rw [← List.append_assoc, List.take_append_drop]
      · intro h0
        have := congrArg List.length h0
        rw [List.length_take, List.length_nil] at this
        omega
      · intro _
        simp [h]
      · intro _
        simp only [Source.reads, List.map_cons, List.sum_cons, List.length_drop]
        omega
    · rw [if_neg h]
      exact .inr ⟨_, _, rfl, rfl⟩

/-- How the tokens of the chunked reader are changed: not at all if scalars are evaluated at once, or if the text has no block
scalars; or in the flag of block scalars, if the text has no carriage returns. -/
def Apt (g : MaybeToken → MaybeToken) (opts : SFlags) (text : Str) : Prop :=
  opts.lazy = false ∧ g = id ∨ opts.lazy = true ∧ (g = settle ∧ 0x0D ∉ text ∨ g = id ∧ b! '|' ∉ text ∧ b! '>' ∉ text)

theorem Apt.fix {g : MaybeToken → MaybeToken} {opts : SFlags} (h : Apt g opts text) : Fixes g := by
  rcases h with ⟨-, rfl⟩ | ⟨-, ⟨rfl, -⟩ | ⟨rfl, -⟩⟩
  · exact fun _ => rfl
  · exact settle_fixes
  · exact fun _ => rfl

/-- The tokens pushed before, all changed. -/
def Pre.raw {g : MaybeToken → MaybeToken} (fix : Fixes g) (l : List TokenEntry) : Pre := ⟨l.map (mapE g), g, fix⟩

theorem Pre.raw_on {g : MaybeToken → MaybeToken} {fix : Fixes g} {l out : List TokenEntry} :
    (Pre.raw fix l).on out = (l ++ out).map (mapE g) := by simp [Pre.on, Pre.raw]

/-- How a drive of the chunked reader and one on the text compare. -/
def DriveSim (g : MaybeToken → MaybeToken) (size : Nat → Nat → Nat) (err : Option IoError) (text : Str)
    (c : Out ReaderError Unit × List TokenEntry × (Owned × Scanner)) (w : Out ScanError Unit × Scanner × List TokenEntry) :
    Prop :=
  match c with
  | (.ok _, out, (ow, sc)) => ∃ k rem, w = (.ok (), { sc with offset := k }, out.map (mapE g)) ∧ Lined ow.head rem text sc k ∧
      Feeds ow.source rem err ∧ (ow.exhausted = true → rem = [])
  | (.err e, out, _) => ReadFails size text err e ∨ ∃ e', e = .Scanner e' ∧ w.1 = .err e' ∧ w.2.2 = out.map (mapE g)
  | (.panic, out, _) => w.1 = .panic ∧ w.2.2 = out.map (mapE g)
  | (.diverge, _, _) => False

theorem lined_valid {head : Str} {sc : Scanner} {k : Nat} (ht : validUtf8 text = true) (h : Lined head rem text sc k) :
    validUtf8 rem = true := by
  have h1 := validUtf8_drop ht h.whole
  rw [h.rest, validUtf8_append h.valid] at h1
  exact h1

theorem scanTokens_ends {o : SFlags} {head : Str} {sc : Scanner} {k : Nat} (h : Lined head rem text sc k)
    (hd : sc.state ≠ .Done) : Ends True Plainly head sc [] (scanTokens o head sc) := by
  refine scanLoop_ends closed_plainly (fun _ h => h) (.inl trivial) _ _ _ h.boundary h.valid h.valid hd ?_
  unfold Scanner.left
  have := List.length_drop (i := sc.offset) (l := head)
  split <;> (try split) <;> omega

/-- One call of the scanner on the current chunk. -/
theorem scanTokens_sim {g : MaybeToken → MaybeToken} {opts : SFlags} (hA : Apt g opts text) {ow : Owned} {sc : Scanner} {pre : Pre} (hg : pre.g = g) {k k' fw : Nat}
    (ht : validUtf8 text = true) (hL : Lined ow.head rem text sc k') (hd : sc.state ≠ .Done)
    (hx : ow.exhausted = true → rem = [])
    (hw : (scanGo { opts with extendable := false } text fw (scanNextToken { opts with extendable := false }
      (SS.grow rem k pre ⟨sc, ow.head.drop sc.offset, []⟩))).1 ≠ .diverge) :
    Sim { opts with extendable := false } ow.head rem text pre
      (scanTokens { opts with extendable := !ow.exhausted } ow.head sc)
      (scanGo { opts with extendable := false } text fw (scanNextToken { opts with extendable := false }
        (SS.grow rem k pre ⟨sc, ow.head.drop sc.offset, []⟩))) := by
  have hr := lined_valid ht hL
  cases he : ow.exhausted with
  | true =>
    obtain rfl := hx he
    have hS : Subs g (fun _ => True) (fun _ => True) True { opts with extendable := false } { opts with extendable := false } [] := by
      refine subs_whole _ ?_ hA.fix
      rcases hA with ⟨-, rfl⟩ | ⟨-, ⟨rfl, -⟩ | ⟨rfl, -⟩⟩
      · intros; rfl
      · intro l h
        cases l with
        | flow => rfl
        | plain => rfl
        | block o1 s st i f =>
          have := h o1 s st i f rfl
          subst this
          simp only [settle, settleLazy, ite_self]
      · intros; rfl
    refine scanLoop_sim hS (fun _ _ _ => trivial) hr ?_ _ sc [] fw k k' pre hg hL hd (.inl rfl) hw
    intro s s1 k pre _ _ _ _ h
    exact absurd h (scanNextToken_calm rfl).not
  | false =>
    rcases hA with ⟨hl, rfl⟩ | ⟨hl, hT⟩
    · have hS := subs_ext (o := { opts with extendable := !false }) (o' := { opts with extendable := false }) (t := rem)
        rfl rfl hl hl (headOk_of_valid hr)
      exact scanLoop_sim hS (fun _ h _ => h) hr
        (fun s s1 k pre hg hv hz hd h => scanNextToken_retry (pre := pre) (hg ▸ hS) rfl rfl hv hz hd h k) _ sc [] fw k k' pre hg hL hd
        (.inl rfl) hw
    · have hS := subs_lazy (o := { opts with extendable := !false }) (o' := { opts with extendable := false }) (t := rem)
        rfl rfl hl hl (headOk_of_valid hr) hT
      exact scanLoop_sim hS (fun _ h h' => ⟨h, h'⟩) hr
        (fun s s1 k pre hg hv hz hd h => scanNextToken_retry (pre := pre) (hg ▸ hS) rfl rfl hv hz hd h k) _ sc [] fw k k' pre hg hL hd
        (.inl rfl) hw

/-- A new chunk that is no text ends inside a character. -/
theorem cut_valid {head bytes rem' : Str} {sc : Scanner} {k : Nat} (ht : validUtf8 text = true)
    (hL : Lined head (bytes ++ rem') text sc k) (hc : Cut text (text.length - rem'.length)) :
    validUtf8 (head.drop sc.offset ++ bytes) = true := by
  obtain ⟨p, q, hpq, hn⟩ := hc
  have hq : validUtf8 (utf8 q) = true := (validUtf8_iff _).2 ⟨q, rfl⟩
  have h1 : text = (text.take k ++ (head.drop sc.offset ++ bytes)) ++ rem' := by
    rw [List.append_assoc, List.append_assoc, ← hL.rest, List.take_append_drop]
  have hlen : (text.take k ++ (head.drop sc.offset ++ bytes)).length = (utf8 p).length := by
    have := congrArg List.length h1
    rw [List.length_append] at this
    omega
  have h2 : utf8 p = text.take k ++ (head.drop sc.offset ++ bytes) := by
    rw [h1] at hpq
    exact ((List.append_inj hpq hlen).1).symm
  have hk : k ≤ text.length := boundary_le hL.whole
  have htk : (text.take k).length = k := by simp [hk]
  have h3 : head.drop sc.offset ++ bytes = (utf8 p).drop k := by
    rw [h2, List.drop_left' htk]
  have hkp : k ≤ (utf8 p).length := by rw [h2, List.length_append]; omega
  rw [h3]
  refine validUtf8_drop ((validUtf8_iff _).2 ⟨p, rfl⟩) ?_
  have := hL.whole
  rw [hpq, boundary_grow (headOk_of_valid hq) hkp] at this
  exact this

theorem scanLoop_calm {o : SFlags} (hx : o.extendable = false) {base : Str} :
    ∀ fuel (sc : Scanner) (out : List TokenEntry), (scanLoop o base fuel sc out).1 ≠ .err .Extend := by
  intro fuel
  induction fuel with
  | zero => intro sc out h; cases h
  | succ fuel ih =>
    intro sc out
    rw [scanLoop]
    split
    · split
      · have := scanNextToken_calm hx ⟨sc, base.drop sc.offset, out⟩
        generalize scanNextToken o ⟨sc, base.drop sc.offset, out⟩ = r at this
        obtain ⟨x, s⟩ := r
        cases x with
        | ok u => exact ih _ _
        | err e =>
          simp only
          split
          · exact this
          · exact this
        | panic => exact fun h => by cases h
        | diverge => exact fun h => by cases h
      · exact ih _ _
    · exact fun h => by cases h

theorem ownedLoop_sim (hsize : ∀ a b, 0 < size a b) {g : MaybeToken → MaybeToken} {opts : SFlags} (hA : Apt g opts text) (ht : validUtf8 text = true) :
    ∀ fuel (ow : Owned) (sc : Scanner) (pre : List TokenEntry) (fw k k' : Nat) (rem : Str),
    Lined ow.head rem text sc k' → sc.state ≠ .Done → Feeds ow.source rem err → (ow.exhausted = true → rem = []) →
    (ow.exhausted = true ∧ 1 ≤ fuel ∨ ow.source.reads + 2 ≤ fuel) →
    (scanGo { opts with extendable := false } text fw (scanNextToken { opts with extendable := false }
      (SS.grow rem k (Pre.raw hA.fix pre) ⟨sc, ow.head.drop sc.offset, []⟩))).1 ≠ .diverge →
    DriveSim g size err text (ownedLoop size opts fuel ow sc pre)
      (scanGo { opts with extendable := false } text fw (scanNextToken { opts with extendable := false }
        (SS.grow rem k (Pre.raw hA.fix pre) ⟨sc, ow.head.drop sc.offset, []⟩))) := by
  intro fuel
  induction fuel with
  | zero => intro ow sc pre fw k k' rem _ _ _ _ h; omega
  | succ fuel ih =>
    intro ow sc pre fw k k' rem hL hd hF hx hfuel hw
    have hsim := scanTokens_sim hA rfl ht hL hd hx hw
    have hend := scanTokens_ends (o := { opts with extendable := !ow.exhausted }) hL hd
    have hcalm : ow.exhausted = true → (scanTokens { opts with extendable := !ow.exhausted } ow.head sc).1 ≠ .err .Extend := by
      intro h
      exact scanLoop_calm (by rw [h]; rfl) _ _ _
    rw [ownedLoop]
    generalize scanTokens { opts with extendable := !ow.exhausted } ow.head sc = r at hsim hend hcalm
    obtain ⟨x, sc1, more⟩ := r
    cases x with
    | ok u =>
      obtain ⟨k1, h1, h2⟩ := hsim
      rw [Pre.raw_on] at h1
      exact ⟨k1, rem, h1, h2, hF, hx⟩
    | panic =>
      simp only [Sim, Pre.raw_on] at hsim
      exact hsim
    | diverge => exact hend
    | err e =>
      by_cases he : e = .Extend
      · subst he
        simp only [Sim, if_pos] at hsim
        obtain ⟨k2, k1, fw1, hL1, hd1, h1⟩ := hsim
        have hex : ow.exhausted = false := by
          cases h : ow.exhausted with
          | false => rfl
          | true => exact absurd rfl (hcalm h)
        have hle : ¬ ow.head.length < sc1.offset := by have := boundary_le hL1.boundary; omega
        simp only [Owned.refresh, if_neg hle]
        rcases hF.take (hsize ow.tails sc1.offset) with ⟨bytes, src', rem', ht1, hrem, hF', hb1, hb2, hb3⟩ | ⟨e, src', ht1, he⟩
        · rw [ht1]
          subst hrem
          by_cases hv : validUtf8 (ow.head.drop sc1.offset ++ bytes) = true
          · simp only [if_pos hv]
            have hgrow : SS.grow (bytes ++ rem') k1 (Pre.raw hA.fix pre) ⟨sc1, ow.head.drop sc1.offset, more⟩ =
                SS.grow rem' k1 (Pre.raw hA.fix (pre ++ more)) ⟨{ sc1 with offset := 0 }, (ow.head.drop sc1.offset ++ bytes).drop 0, []⟩ := by
              simp [SS.grow, Pre.on, Pre.raw]
            rw [hgrow] at h1
            rw [h1] at hw ⊢
            have hL2 : Lined (ow.head.drop sc1.offset ++ bytes) rem' text { sc1 with offset := 0 } k2 :=
              ⟨rfl, hv, hL1.whole, by
                rw [hL1.rest, ← List.append_assoc]; rfl, hL1.zeroed⟩
            refine ih ⟨ow.head.drop sc1.offset ++ bytes, ow.tails + 1, src', bytes.isEmpty⟩ _ (pre ++ more) fw1 k1 k2 rem'
              hL2 hd1 hF' (fun h => hb1 (by simpa using h)) ?_ hw
            rcases hfuel with ⟨h, -⟩ | h
            · rw [hex] at h; cases h
            · cases hbe : bytes with
              | nil => exact .inl ⟨rfl, by omega⟩
              | cons b bs =>
                right
                have := hb3 (by rw [hbe]; exact List.cons_ne_nil _ _)
                simp only
                omega
          · simp only [if_neg hv]
            left
            have hcut : ¬ Cut text (text.length - rem'.length) := fun hc => hv (cut_valid ht hL1 hc)
            have hne : rem' ≠ [] := by
              rintro rfl
              apply hcut
              obtain ⟨l, hl⟩ := (validUtf8_iff text).1 ht
              exact ⟨l, [], by simp [hl, utf8], by rw [hl]; simp⟩
            have hlen : text.length = (text.take k2).length + ((ow.head.drop sc1.offset).length + (bytes.length + rem'.length)) := by
              rw [← List.length_append, ← List.length_append, ← hL1.rest, ← List.length_append, List.take_append_drop]
            have h0 : 0 < rem'.length := List.length_pos_iff.2 hne
            exact ⟨ow.tails, sc1.offset, _, by have := hb2 hne; omega, by omega, hcut⟩
        · rw [ht1]
          exact .inl he
      · simp only [Sim, if_neg he, Pre.raw_on] at hsim
        have : DriveSim g size err text (.err (.Scanner e), pre ++ more, (ow, sc1))
          (scanGo { opts with extendable := false } text fw (scanNextToken { opts with extendable := false }
            (SS.grow rem k (Pre.raw hA.fix pre) ⟨sc, ow.head.drop sc.offset, []⟩))) := .inr ⟨e, rfl, hsim⟩
        revert he
        cases e <;> first | exact fun he => absurd rfl he | exact fun _ => this

end Yary.Chunk
