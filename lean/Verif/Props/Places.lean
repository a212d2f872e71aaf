import Verif.Proof.Scan.Places
import Verif.Props.Keys

/-! # Where block collections and keys may begin -/

namespace Yary

open Spec

variable {opts : SFlags} {text : List Char}

/-- The places, from the step before. -/
theorem place_iff {l : List TokenEntry} {s : SS} {n : Nat} {b : Bool} (h : After opts (utf8 text) l s) (hd : s.sc.state ≠ .Done)
    (hf : s.sc.context.flow = 0) (hb : b = true ↔ s.sc.simpleKeyAllowed = true ∨ n ≠ 0) : b = true ↔ Place l n := by
  rw [hb, after_allowed ((validUtf8_iff _).2 ⟨text, rfl⟩) h hd hf]
  exact or_comm

theorem after_reach {l : List TokenEntry} {s : SS} (h : After opts (utf8 text) l s) : Reach true opts (utf8 text) s := by
  induction h with
  | step h hd hs => exact .step h hd hs
  | hand h ih => exact .hand ih
  | offset n h ih => exact .offset n ih

theorem after_started {l : List TokenEntry} {s : SS} (h : After opts (utf8 text) l s) : s.sc.state ≠ .Start := by
  induction h with
  | hand h ih => exact ih
  | offset n h ih => exact ih
  | @step s s' h hd hs =>
    have hB := reach_before ((validUtf8_iff _).2 ⟨text, rfl⟩) h
    rcases (closed_before.scanNextToken (P := True) (opts := opts) (.inl trivial) hB hd).of_ok hs with
      ⟨h1, ⟨-, h2, -⟩ | ⟨h2, h3, -⟩⟩ | ⟨-, h1⟩
    · rw [h2]; simp
    · rw [h3]; exact h2
    · obtain @⟨s, h, -, -, -, -⟩ := h1
      simp [SS.put]

/-- A step that pushes one of these tokens. -/
theorem indicator_step {l : List TokenEntry} {s s' : SS} (h : After opts (utf8 text) l s)
    (hs : Scan.scanNextToken opts s = (.ok (), s')) {e : TokenEntry} (he : e ∈ pushedBy s s')
    (hm : e.wrap.marker = .BlockEntry ∨ e.wrap.marker = .Key ∨ e.wrap.marker = .Value) :
    ∃ s1 n f l0 l1 e', Skips true s.buf n s1.buf ∧ (s1.sc.simpleKeyAllowed = true ↔ s.sc.simpleKeyAllowed = true ∨ n ≠ 0) ∧
      s1.sc.context.flow = s.sc.context.flow ∧ Closed.Starts s1.sc.context s1.buf f ∧ Scan.run opts f s1 = (.ok (), s') ∧
      pushedBy s s' = l0 ++ l1 ++ [e'] ∧ (∀ x ∈ l0, x.wrap = .Token .BlockEnd) ∧ (∀ x ∈ l1, Structure (f == .value) x) ∧ LastOf f e'.wrap ∧
      s'.out = s1.out ++ (l1 ++ [e']) := by
  obtain ⟨s1, n, g1, g2, g3, ⟨l0, g4, g5⟩, g6, -⟩ := step_view (after_started h) hs
  rcases g6 with ⟨g6, -⟩ | ⟨f, hf, hrun, l1, e', g8, g9, g10⟩
  · exfalso
    obtain ⟨l1, h1, h2⟩ := Adds.of_eq (S := fun x => ¬ (x.wrap.marker = .BlockEntry ∨ x.wrap.marker = .Key ∨ x.wrap.marker = .Value))
      (Adds.get.bind fun _ => (Adds.pure _).ite (((Adds.unroll (fun r => by simp [MaybeToken.marker, Marker.ofToken]) _).bind fun _ =>
        Adds.removeKey.bind fun _ => (Adds.upd _).bind fun _ => Adds.push fun r => by simp [MaybeToken.marker, Marker.ofToken]).ite (Adds.pure _)) :
        Adds _ Scan.fetchStreamEnd) g6
    unfold pushedBy at he
    rw [h1, g4, List.append_assoc, List.drop_left] at he
    rcases List.mem_append.1 he with he | he
    · rw [g5 e he] at hm; simp [MaybeToken.marker, Marker.ofToken] at hm
    · exact h2 e he hm
  · refine ⟨s1, n, f, l0, l1, e', g1, g2, g3, by rw [hf]; exact Closed.dispatch_starts _ _ _, hrun, ?_, g5, g9, g10, by rw [g8, List.append_assoc]⟩
    unfold pushedBy
    rw [g8, g4, List.append_assoc, List.append_assoc, List.drop_left, List.append_assoc]

/-! ### C42 -/

/-- **C42**: a `-` is scanned as the start of an entry only outside of flow collections, and only where a line begins, after white
space, or after one of the tokens of `Opens` on the same line. -/
theorem C42_entry {l : List TokenEntry} {s s' : SS} (h : After opts (utf8 text) l s) (hd : s.sc.state ≠ .Done)
    (hs : Scan.scanNextToken opts s = (.ok (), s')) {e : TokenEntry} (he : e ∈ pushedBy s s') (hm : e.wrap.marker = .BlockEntry) :
    s.sc.context.flow = 0 ∧ ∃ n t, Skips true s.buf n (b! '-' :: t) ∧ Place l n := by
  obtain ⟨s1, n, f, l0, l1, e', g1, g2, g3, g4, g5, g6, g7, g8, g9, -⟩ := indicator_step h hs he (.inl hm)
  have hlast : e = e' := by
    rw [g6] at he
    simp only [List.mem_append, List.mem_singleton] at he
    rcases he with (he | he) | he
    · rw [g7 e he] at hm; simp [MaybeToken.marker, Marker.ofToken] at hm
    · have := g8 e he
      simp [Structure, hm] at this
    · exact he
  subst hlast
  have hf : f = .blockEntry := by
    cases f <;> simp_all [LastOf, Inert]
  subst hf
  obtain ⟨t, ht⟩ := g4
  simp only [Scan.run, Scan.fetchBlockEntry] at g5
  obtain ⟨_, s2, h2, -⟩ := bind_ok g5
  unfold Scan.blockEntryCheck at h2
  obtain ⟨_, s3, h3, h2⟩ := bind_ok h2
  obtain ⟨rfl, rfl⟩ := get_ok h3
  by_cases hc : (s1.sc.context.isBlock && s1.sc.simpleKeyAllowed) = true
  · simp only [Bool.and_eq_true, Context.isBlock, beq_iff_eq] at hc
    have hfl : s.sc.context.flow = 0 := by rw [← g3]; exact hc.1
    exact ⟨hfl, n, t, by rw [← ht]; exact g1, (place_iff h hd hfl g2).1 hc.2⟩
  · rw [if_neg hc] at h2
    simp [SO.fail] at h2

/-- **C42**: outside of flow collections, a `?` is scanned as the start of a key only in such a place. -/
theorem C42_explicit {l : List TokenEntry} {s s' : SS} (h : After opts (utf8 text) l s) (hd : s.sc.state ≠ .Done)
    (hfl : s.sc.context.flow = 0) (hs : Scan.scanNextToken opts s = (.ok (), s')) {e : TokenEntry}
    (he : (pushedBy s s').getLast? = some e) (hm : e.wrap.marker = .Key) : ∃ n t, Skips true s.buf n (b! '?' :: t) ∧ Place l n := by
  obtain ⟨s1, n, f, l0, l1, e', g1, g2, g3, g4, g5, g6, g7, g8, g9, -⟩ := indicator_step h hs (List.mem_of_getLast? he) (.inr (.inl hm))
  have hlast : e' = e := by rw [g6] at he; simpa using he
  subst hlast
  have hf : f = .explicitKey := by
    cases f <;> simp_all [LastOf, Inert]
  subst hf
  obtain ⟨t, ht⟩ := g4
  simp only [Scan.run, Scan.fetchExplicitKey] at g5
  obtain ⟨_, s2, h2, g5⟩ := bind_ok g5
  obtain ⟨rfl, rfl⟩ := get_ok h2
  obtain ⟨_, s2, h2, -⟩ := bind_ok g5
  unfold Scan.explicitKeyCheck at h2
  obtain ⟨_, s3, h3, h2⟩ := bind_ok h2
  obtain ⟨rfl, rfl⟩ := get_ok h3
  have hb : s1.sc.context.isBlock = true := by simp [Context.isBlock, g3, hfl]
  rw [if_pos hb] at h2
  cases ha : s1.sc.simpleKeyAllowed with
  | true => exact ⟨n, t, by rw [← ht]; exact g1, (place_iff h hd hfl g2).1 ha⟩
  | false =>
    rw [ha] at h2
    simp [SO.fail] at h2

/-- **C42**: outside of flow collections, a `:` that does not follow an implicit key is scanned as the start of a value only in such a
place. -/
theorem C42_value {l : List TokenEntry} {s s' : SS} (h : After opts (utf8 text) l s) (hd : s.sc.state ≠ .Done)
    (hfl : s.sc.context.flow = 0) (hs : Scan.scanNextToken opts s = (.ok (), s')) {e : TokenEntry}
    (he : (pushedBy s s').getLast? = some e) (hm : e.wrap.marker = .Value) (hk : ∀ x ∈ pushedBy s s', x.wrap.marker ≠ .Key) :
    ∃ n t, Skips true s.buf n (b! ':' :: t) ∧ Place l n := by
  obtain ⟨s1, n, f, l0, l1, e', g1, g2, g3, g4, g5, g6, g7, g8, g9, g10⟩ := indicator_step h hs (List.mem_of_getLast? he) (.inr (.inr hm))
  have hlast : e' = e := by rw [g6] at he; simpa using he
  subst hlast
  have hf : f = .value := by
    cases f <;> simp_all [LastOf, Inert]
  subst hf
  obtain ⟨t, ht⟩ := g4
  have hnk : ∀ k, s1.sc.key = some k → k.possible.allowed = false := by
    intro k hk'
    cases hp : k.possible.allowed with
    | false => rfl
    | true =>
      exfalso
      obtain ⟨l', -, h1, -⟩ := run_value_saved hk' hp g5
      have : l1 ++ [e'] = l' ++ [⟨.Token .Key, k.stats.read⟩] ++ [⟨.Token .Value, s1.sc.stats.read + 1⟩] := by
        rw [g10] at h1
        simpa [List.append_assoc] using h1
      have := (List.append_inj' this rfl).1
      exact hk ⟨.Token .Key, k.stats.read⟩ (by rw [g6, this]; simp) rfl
  simp only [Scan.run, Scan.fetchValue] at g5
  obtain ⟨k, s2, h2, g5⟩ := bind_ok g5
  obtain ⟨rfl, rfl⟩ := takeKey_ok h2
  obtain ⟨_, s2, h2, -⟩ := bind_ok g5
  have h3 : Scan.valueBare (s1.setKey none) = (.ok (), s2) := by
    cases hk' : s1.sc.key with
    | none => rw [hk'] at h2; exact h2
    | some k =>
      rw [hk'] at h2
      simpa only [Scan.valueKey, hnk k hk', Bool.false_eq_true, ↓reduceIte] using h2
  unfold Scan.valueBare at h3
  obtain ⟨_, s3, h4, h3⟩ := bind_ok h3
  obtain ⟨rfl, rfl⟩ := get_ok h4
  obtain ⟨_, s3, h4, -⟩ := bind_ok h3
  unfold Scan.valueCheck at h4
  obtain ⟨_, s4, h5, h4⟩ := bind_ok h4
  obtain ⟨rfl, rfl⟩ := get_ok h5
  have hb : (s1.setKey none).sc.context.isBlock = true := by simp [SS.setKey, Context.isBlock, g3, hfl]
  rw [if_pos hb] at h4
  cases ha : s1.sc.simpleKeyAllowed with
  | true => exact ⟨n, t, by rw [← ht]; exact g1, (place_iff h hd hfl g2).1 ha⟩
  | false =>
    have : (s1.setKey none).sc.simpleKeyAllowed = false := ha
    rw [this] at h4
    simp [SO.fail] at h4

/-- **C42**: outside of flow collections, a possible implicit key is found only in such a place. -/
theorem C42_implicit {l : List TokenEntry} {s s' : SS} (h : After opts (utf8 text) l s) (hd : s.sc.state ≠ .Done)
    (hfl : s.sc.context.flow = 0) (hs : Scan.scanNextToken opts s = (.ok (), s')) {k : KeySave} (hk : s'.sc.key = some k)
    (hp : k.possible ≠ .No) (hn : s.sc.key ≠ some k) : ∃ n r, Skips true s.buf n r ∧ Place l n := by
  obtain ⟨s1, n, g1, g2, g3, -, g6, g7⟩ := step_view (after_started h) hs
  obtain ⟨-, -, -, -, -, hkey⟩ := prepare_ok (reach_before ((validUtf8_iff _).2 ⟨text, rfl⟩) (after_reach h)) g7
  have old : s1.sc.key ≠ some k := by
    intro h
    rcases hkey k h with h | ⟨k0, -, h⟩
    · exact hn h
    · rw [h] at hp; exact hp rfl
  refine ⟨n, s1.buf, g1, (place_iff h hd hfl g2).1 ?_⟩
  cases ha : s1.sc.simpleKeyAllowed with
  | true => rfl
  | false =>
    exfalso
    have : s'.sc.key = none ∨ s'.sc.key = s1.sc.key := by
      rcases g6 with ⟨g6, -⟩ | ⟨f, -, hrun, -⟩
      · have drops : Drops (Scan.fetchStreamEnd) :=
          Drops.get.bind fun _ => (Drops.pure _).ite (((Drops.unroll _).bind fun _ =>
            Drops.removeKey.bind fun _ => (Drops.upd).bind fun _ => Drops.push _).ite (Drops.pure _))
        exact Unsaved.of_drops drops _ _ _ ha g6
      · exact Unsaved.run f _ _ _ ha hrun
    rcases this with h | h
    · rw [hk] at h; cases h
    · rw [hk] at h; exact old h.symm

/-- Which indicators are scanned as such, outside of flow collections. -/
theorem dispatch_indicator {x : Context} {column : Nat} {t : Str} (ht : t = [] ∨ White t) :
    Scan.dispatch x column (b! '-' :: t) = .blockEntry ∧ Scan.dispatch x column (b! '?' :: t) = .explicitKey ∧
      Scan.dispatch x column (b! ':' :: t) = .value := by
  have hw := isWhiteSpaceZ_iff.2 ht
  have hm : startsMarker (b! '-' :: t) = false := by
    rcases ht with rfl | (⟨u, rfl | rfl⟩ | ⟨w, hb, u, rfl⟩)
    · decide
    · simp [startsMarker]
    · simp [startsMarker]
    · simp only [lineBreaks, List.mem_cons, List.not_mem_nil, or_false] at hb
      rcases hb with rfl | rfl | rfl | rfl | rfl | rfl <;> simp [startsMarker]
  have hm1 : startsMarker (b! '?' :: t) = false := by simp [startsMarker]
  have hm2 : startsMarker (b! ':' :: t) = false := by simp [startsMarker]
  refine ⟨?_, ?_, ?_⟩ <;> simp [Scan.dispatch, hm, hm1, hm2, hw, startsWith_cons]

/-- Up to the next token. -/
theorem step_to_place {l : List TokenEntry} {s : SS} {n : Nat} {b : Byte} {t : Str} (h : After opts (utf8 text) l s) (hx : opts.extendable = false)
    (hk : ¬ KeyDue s) (hfl : s.sc.context.flow = 0) (hc : Comes s (b :: t)) (hb : b < 128) (hn : Skips true s.buf n (b :: t)) (hp : ¬ Place l n) :
    ∃ s1, Scan.scanNextToken opts s = Scan.run opts (Scan.dispatch s1.sc.context s1.sc.stats.column (b :: t)) s1 ∧
      s1.sc.context.isBlock = true ∧ s1.sc.simpleKeyAllowed = false ∧ Scan.prepare opts s = (.ok (), s1) := by
  have hh : HeadOk (b :: t) := by rintro x y h; simp at h; exact .inl (h.1 ▸ hb)
  obtain ⟨s1, l', h1, h2, -, -, -, -, h3⟩ := step_prepared hx hk hc hh (by simp)
  obtain ⟨n', g1, g2, g3⟩ := prepare_place h3
  rw [h2] at g1
  obtain ⟨rfl, -⟩ := hn.unique g1
  have hd : s.sc.state ≠ .Done := by rw [hc.1]; simp
  refine ⟨s1, h1, by simp [Context.isBlock, g3, hfl], ?_, h3⟩
  cases ha : s1.sc.simpleKeyAllowed with
  | false => rfl
  | true => exact absurd ((place_iff h hd hfl g2).1 ha) hp

/-- **C42**: elsewhere, a `-` followed by white space is an error. (After white space and comments in ASCII.) -/
theorem C42_entry_rejects {l : List TokenEntry} {s : SS} {n : Nat} {t : Str} (h : After opts (utf8 text) l s) (hx : opts.extendable = false)
    (hk : ¬ KeyDue s) (hfl : s.sc.context.flow = 0) (hc : Comes s (b! '-' :: t)) (ht : t = [] ∨ White t)
    (hn : Skips true s.buf n (b! '-' :: t)) (hp : ¬ Place l n) : (Scan.scanNextToken opts s).1 = .err .InvalidBlockEntry := by
  obtain ⟨s1, h1, h2, h3, -⟩ := step_to_place h hx hk hfl hc (by decide) hn hp
  rw [h1, (dispatch_indicator ht).1]
  simp only [Scan.run, Scan.fetchBlockEntry]
  have : Scan.blockEntryCheck s1 = (.err .InvalidBlockEntry, s1) := by
    unfold Scan.blockEntryCheck
    rw [bind_run (m := Scan.get) (a := s1) (s1 := s1) rfl]
    simp [h3, SO.fail]
  rw [bind_run_err this]

/-- **C42**: so is a `-` followed by white space inside a flow collection. -/
theorem C42_flow_rejects {s : SS} {t : Str} (hx : opts.extendable = false)
    (hk : ¬ KeyDue s) (hfl : s.sc.context.flow ≠ 0) (hc : Comes s (b! '-' :: t)) (ht : t = [] ∨ White t) :
    (Scan.scanNextToken opts s).1 = .err .InvalidBlockEntry := by
  have hh : HeadOk (b! '-' :: t) := by rintro x y h; simp at h; exact .inl (h.1 ▸ by decide)
  obtain ⟨s1, l', h1, -, -, -, -, -, h3⟩ := step_prepared hx hk hc hh (by simp)
  obtain ⟨n', -, -, g3⟩ := prepare_place h3
  rw [h1, (dispatch_indicator ht).1]
  simp only [Scan.run, Scan.fetchBlockEntry]
  have : Scan.blockEntryCheck s1 = (.err .InvalidBlockEntry, s1) := by
    unfold Scan.blockEntryCheck
    rw [bind_run (m := Scan.get) (a := s1) (s1 := s1) rfl]
    simp [Context.isBlock, g3, hfl, SO.fail]
  rw [bind_run_err this]

/-- **C42**: elsewhere, a `?` followed by white space is an error. -/
theorem C42_explicit_rejects {l : List TokenEntry} {s : SS} {n : Nat} {t : Str} (h : After opts (utf8 text) l s) (hx : opts.extendable = false)
    (hk : ¬ KeyDue s) (hfl : s.sc.context.flow = 0) (hc : Comes s (b! '?' :: t)) (ht : t = [] ∨ White t)
    (hn : Skips true s.buf n (b! '?' :: t)) (hp : ¬ Place l n) : (Scan.scanNextToken opts s).1 = .err .InvalidKey := by
  obtain ⟨s1, h1, h2, h3, -⟩ := step_to_place h hx hk hfl hc (by decide) hn hp
  rw [h1, (dispatch_indicator ht).2.1]
  simp only [Scan.run, Scan.fetchExplicitKey]
  rw [bind_run (m := Scan.get) (a := s1) (s1 := s1) rfl]
  have : Scan.explicitKeyCheck s1 = (.err .InvalidKey, s1) := by
    unfold Scan.explicitKeyCheck
    rw [bind_run (m := Scan.get) (a := s1) (s1 := s1) rfl]
    simp [h2, h3, SO.fail]
  rw [bind_run_err this]

/-- **C42**: elsewhere, a `:` followed by white space is an error, if no possible key is remembered. -/
theorem C42_value_rejects {l : List TokenEntry} {s : SS} {n : Nat} {t : Str} (h : After opts (utf8 text) l s) (hx : opts.extendable = false)
    (hk : ∀ k, s.sc.key = some k → k.possible = .No) (hfl : s.sc.context.flow = 0) (hc : Comes s (b! ':' :: t)) (ht : t = [] ∨ White t)
    (hn : Skips true s.buf n (b! ':' :: t)) (hp : ¬ Place l n) : (Scan.scanNextToken opts s).1 = .err .InvalidValue := by
  have hkd : ¬ KeyDue s := by
    rintro ⟨k, h1, h2⟩
    rw [hk k h1] at h2; cases h2
  obtain ⟨s1, h1, h2, h3, h4⟩ := step_to_place h hx hkd hfl hc (by decide) hn hp
  obtain ⟨-, -, -, -, -, hkey⟩ := prepare_ok (reach_before ((validUtf8_iff _).2 ⟨text, rfl⟩) (after_reach h)) h4
  have hno : ∀ k, s1.sc.key = some k → k.possible = .No := by
    intro k h
    rcases hkey k h with h | ⟨k0, -, h⟩
    · exact hk k h
    · rw [h]
  rw [h1, (dispatch_indicator ht).2.2]
  simp only [Scan.run, Scan.fetchValue]
  rw [bind_run (m := Scan.takeKey) (a := s1.sc.key) (s1 := s1.setKey none) rfl]
  have hcheck : Scan.valueCheck (s1.setKey none) = (.err .InvalidValue, s1.setKey none) := by
    unfold Scan.valueCheck
    rw [bind_run (m := Scan.get) (a := s1.setKey none) (s1 := s1.setKey none) rfl]
    simp [SS.setKey, h2, h3, SO.fail]
  have hbare : Scan.valueBare (s1.setKey none) = (.err .InvalidValue, s1.setKey none) := by
    unfold Scan.valueBare
    rw [bind_run (m := Scan.get) (a := s1.setKey none) (s1 := s1.setKey none) rfl, bind_run_err hcheck]
  have : Scan.valueKey s1.sc.key (s1.setKey none) = (.err .InvalidValue, s1.setKey none) := by
    cases hk' : s1.sc.key with
    | none => exact hbare
    | some k =>
      simp only [Scan.valueKey, hno k hk', KeyPossible.allowed, Bool.false_eq_true, ↓reduceIte]
      exact hbare
  rw [bind_run_err this]

/-! Examples. -/

/-- `After`, for several steps from the start. -/
theorem after_steps {base : Str} (n : Nat) (h : stepsOk opts n ⟨{}, base, []⟩ = true) (hd : (steps opts n ⟨{}, base, []⟩).sc.state ≠ .Done)
    {o : Out ScanError Unit} {s' : SS} (hs : Scan.scanNextToken opts (steps opts n ⟨{}, base, []⟩) = (o, s')) (ho : o = .ok ()) :
    After opts base (pushedBy (steps opts n ⟨{}, base, []⟩) s') s' := by
  subst ho
  exact .step (reach_steps n .start h) hd hs

/-- In `- - a` the second entry begins after the first, on the same line. -/
example : After {} (utf8 "- - a\n".toList) [⟨.Token .BlockSequenceStart, 0⟩, ⟨.Token .BlockEntry, 1⟩] (steps {} 2 ⟨{}, utf8 "- - a\n".toList, []⟩) ∧
    (Scan.scanNextToken {} (steps {} 2 ⟨{}, utf8 "- - a\n".toList, []⟩)).1 = .ok () ∧
    (⟨.Token .BlockEntry, 3⟩ : TokenEntry) ∈ pushedBy (steps {} 2 ⟨{}, utf8 "- - a\n".toList, []⟩) (steps {} 3 ⟨{}, utf8 "- - a\n".toList, []⟩) := by
  refine ⟨?_, by decide +kernel, by decide +kernel⟩
  have := after_steps (opts := {}) (base := utf8 "- - a\n".toList) (s' := steps {} 2 ⟨{}, utf8 "- - a\n".toList, []⟩) 1 (by decide +kernel)
    (by decide +kernel) (by rfl) (by decide +kernel)
  have h : pushedBy (steps {} 1 ⟨{}, utf8 "- - a\n".toList, []⟩) (steps {} 2 ⟨{}, utf8 "- - a\n".toList, []⟩) =
    [⟨.Token .BlockSequenceStart, 0⟩, ⟨.Token .BlockEntry, 1⟩] := by decide +kernel
  rwa [h] at this

/-- In `a: - b` it does not: this is an error. -/
example : (Scan.scanNextToken {} (steps {} 3 ⟨{}, utf8 "a: - b\n".toList, []⟩)).1 = .err .InvalidBlockEntry := by
  have h := after_steps (opts := {}) (base := utf8 "a: - b\n".toList) (s' := steps {} 3 ⟨{}, utf8 "a: - b\n".toList, []⟩) 2 (by decide +kernel)
    (by decide +kernel) (by rfl) (by decide +kernel)
  have hl : pushedBy (steps {} 2 ⟨{}, utf8 "a: - b\n".toList, []⟩) (steps {} 3 ⟨{}, utf8 "a: - b\n".toList, []⟩) =
    [⟨.Token .BlockMappingStart, 0⟩, ⟨.Token .Key, 0⟩, ⟨.Token .Value, 2⟩] := by decide +kernel
  rw [hl] at h
  have hb : (steps {} 3 ⟨{}, utf8 "a: - b\n".toList, []⟩).buf = bytes! " - b\n" := by decide +kernel
  have hsk : Skips true (bytes! " - b\n") 0 (bytes! "- b\n") := by
    refine .blank (.inl rfl) (.done ?_ ?_ ?_ ?_)
    · intro t ht; simp at ht
    · intro t ht; simp at ht
    · rw [atBreak_iff]; decide
    · intro _ t ht; simp at ht
  refine C42_entry_rejects (n := 0) (t := bytes! " b\n") h rfl ?_ (by decide +kernel) ⟨by decide +kernel, ⟨0, by rw [hb]; exact hsk⟩,
    [0x20], by rw [hb]; rfl, by decide⟩ (.inr (.inl ⟨_, .inl rfl⟩)) (by rw [hb]; exact hsk) ?_
  · rintro ⟨k, h1, -⟩
    have : (steps {} 3 ⟨{}, utf8 "a: - b\n".toList, []⟩).sc.key = none := by decide +kernel
    rw [this] at h1; cases h1
  · rintro (h | ⟨e, h1, h2⟩)
    · exact h rfl
    · simp at h1
      subst h1
      simp [MaybeToken.marker, Marker.ofToken, isBlockScalar] at h2

end Yary
