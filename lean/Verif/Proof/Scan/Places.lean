import Verif.Proof.Scan.Allowed
import Verif.Proof.Scan.PlainText

/-! # Where block collections and keys may begin, step by step -/

namespace Yary

open Spec

variable {opts : SFlags} {α β : Type}

/-- A step that scans a token, or the end. -/
theorem step_view {s s' : SS} (hst : s.sc.state ≠ .Start) (hs : Scan.scanNextToken opts s = (.ok (), s')) :
    ∃ s1 n, Skips true s.buf n s1.buf ∧ (s1.sc.simpleKeyAllowed = true ↔ s.sc.simpleKeyAllowed = true ∨ n ≠ 0) ∧
      s1.sc.context.flow = s.sc.context.flow ∧ (∃ l0, s1.out = s.out ++ l0 ∧ ∀ e ∈ l0, e.wrap = .Token .BlockEnd) ∧
      (Scan.fetchStreamEnd s1 = (.ok (), s') ∧ (s1.buf = [] ∨ s1.sc.state = .Done) ∨ ∃ f, f = Scan.dispatch s1.sc.context s1.sc.stats.column s1.buf ∧ Scan.run opts f s1 = (.ok (), s') ∧
        ∃ l e, s'.out = s1.out ++ l ++ [e] ∧ (∀ x ∈ l, Structure (f == .value) x) ∧ LastOf f e.wrap) ∧ Scan.prepare opts s = (.ok (), s1) := by
  obtain ⟨s1, h1, h2⟩ := step_cases hs hst
  obtain ⟨n, g1, g2, g3⟩ := prepare_place h1
  refine ⟨s1, n, g1, g2, g3, (Adds.prepare (S := fun e => e.wrap = .Token .BlockEnd) (fun _ => rfl)).of_eq h1, ?_, h1⟩
  rcases h2 with ⟨h3, h2⟩ | ⟨-, h2⟩
  · exact .inl ⟨h2, h3⟩
  · exact .inr ⟨_, rfl, h2, run_puts (Closed.dispatch_starts _ _ _) (fun h => Closed.dispatch_plain h _ rfl) h2⟩

theorem opens_iff {l0 l : List TokenEntry} {e : TokenEntry} (h0 : ∀ x ∈ l0, x.wrap = .Token .BlockEnd) :
    Opens (l0 ++ l ++ [e]) ↔ (e.wrap.marker = .StreamStart ∨ e.wrap.marker = .BlockEntry ∨ e.wrap.marker = .Key ∨ e.wrap.marker = .FlowEntry ∨
      isBlockScalar e.wrap = true ∨ e.wrap.marker = .Value ∧ ∀ x ∈ l, x.wrap.marker ≠ .Key) := by
  unfold Opens
  have hl : (l0 ++ l ++ [e]).getLast? = some e := by simp
  rw [hl]
  have key : (e.wrap.marker = .Value ∧ ∀ x ∈ l0 ++ l ++ [e], x.wrap.marker ≠ .Key) ↔ (e.wrap.marker = .Value ∧ ∀ x ∈ l, x.wrap.marker ≠ .Key) := by
    constructor
    · rintro ⟨h1, h2⟩
      exact ⟨h1, fun x hx => h2 x (by simp [hx])⟩
    · rintro ⟨h1, h2⟩
      refine ⟨h1, fun x hx => ?_⟩
      simp only [List.mem_append, List.mem_singleton] at hx
      rcases hx with (hx | hx) | rfl
      · rw [h0 x hx]; simp [MaybeToken.marker, Marker.ofToken]
      · exact h2 x hx
      · rw [h1]; simp
  constructor
  · rintro ⟨e', h, h'⟩
    simp only [Option.some.injEq] at h
    subst h
    rwa [key] at h'
  · intro h
    exact ⟨e, rfl, by rwa [key]⟩

/-- After a step the permission for keys follows from its tokens. -/
theorem after_allowed {base : Str} (hv : validUtf8 base = true) {l : List TokenEntry} {s : SS} (h : After opts base l s) (hd : s.sc.state ≠ .Done) (hb : s.sc.context.flow = 0) :
    s.sc.simpleKeyAllowed = true ↔ Opens l := by
  induction h with
  | hand h ih => exact ih hd hb
  | offset n h ih => exact ih hd hb
  | @step s0 s hr hd0 hs =>
    have hB := reach_before hv hr
    unfold pushedBy
    by_cases hst : s0.sc.state = .Start
    · unfold Scan.scanNextToken at hs
      obtain ⟨_, s1, h1, hs⟩ := bind_ok hs
      obtain ⟨rfl, rfl⟩ := get_ok h1
      simp only [hst, beq_self_eq_true, ↓reduceIte] at hs
      unfold Scan.fetchStreamStart at hs
      obtain ⟨_, s1, h1, hs⟩ := bind_ok hs
      have e1 := upd_ok h1
      have e2 := push_ok hs
      have : s.out.drop s0.out.length = [] ++ [] ++ [⟨.Token (.StreamStart .UTF8), s1.sc.stats.read⟩] := by
        rw [e2]; simp only [SS.put]; rw [e1]; simp
      rw [this, opens_iff (by simp), e2]
      simp only [SS.put]
      rw [e1]
      simp [MaybeToken.marker, Marker.ofToken]
    · obtain ⟨s1, n, g1, g2, g3, ⟨l0, g4, g5⟩, g6, g7⟩ := step_view hst hs
      rcases g6 with ⟨g6, g8⟩ | ⟨f, hf, hrun, l, e, g8, g9, g10⟩
      · exfalso
        obtain ⟨hB1, -, hst1, -, -, -⟩ := prepare_ok hB g7
        have hbuf : s1.buf = [] := by
          rcases g8 with h | h
          · exact h
          · rw [hst1] at h; exact absurd h hd0
        have hd1 : (s1.sc.state == .Done) = false := by
          rw [hst1]; simpa using hd0
        unfold Scan.fetchStreamEnd at g6
        obtain ⟨_, s2, h2, g6⟩ := bind_ok g6
        obtain ⟨rfl, rfl⟩ := get_ok h2
        simp only [hd1, hbuf, Bool.false_eq_true, ↓reduceIte, List.isEmpty_nil] at g6
        obtain ⟨_, s2, h2, g6⟩ := bind_ok g6
        obtain ⟨_, s3, h3, g6⟩ := bind_ok g6
        obtain ⟨_, s4, h4, g6⟩ := bind_ok g6
        have e4 := upd_ok h4
        have e5 := push_ok g6
        apply hd
        rw [e5]
        simp only [SS.put]
        rw [e4]
      · have ho : s.out.drop s0.out.length = l0 ++ l ++ [e] := by
          rw [g8, g4, List.append_assoc, List.append_assoc, List.drop_left, List.append_assoc]
        rw [ho, opens_iff g5]
        have ha := run_allows hrun hb
        cases f <;> simp only [LastOf] at g10 ha
        case value =>
          rw [ha]
          have hm : e.wrap.marker = .Value := g10
          have nb : isBlockScalar e.wrap = false := by
            cases hw : e.wrap with
            | Token t => rw [hw] at hm; cases t <;> simp_all [MaybeToken.marker, Marker.ofToken, isBlockScalar]
            | Deferred l => rw [hw] at hm; simp [MaybeToken.marker] at hm
          simp only [hm, nb, reduceCtorEq, false_or, Bool.false_eq_true, true_and]
          constructor
          · intro hk x hx
            obtain ⟨l', h1, h2⟩ := run_value_bare hk hrun
            have : l' = l ++ [e] := by
              rw [g8, List.append_assoc] at h1
              exact (List.append_cancel_left h1).symm
            exact (h2 x (by rw [this]; simp [hx])).2
          · intro hno k hk
            cases hp : k.possible.allowed with
            | false => rfl
            | true =>
              exfalso
              obtain ⟨l', -, h1, -⟩ := run_value_saved hk hp hrun
              have : l ++ [e] = l' ++ [⟨.Token .Key, k.stats.read⟩] ++ [⟨.Token .Value, s1.sc.stats.read + 1⟩] := by
                rw [g8] at h1
                simpa [List.append_assoc] using h1
              have := (List.append_inj' this rfl).1
              exact hno ⟨.Token .Key, k.stats.read⟩ (by rw [this]; simp) rfl
        all_goals first
          | (obtain ⟨i1, i2, i3, i4, i5, i6⟩ := g10; simp [ha, i1, i2, i3, i4, i5, i6]; done)
          | (simp [ha, g10]; done)
          | (simp [ha, g10.1]; done)

/-- Without the permission, no key is saved. -/
def Unsaved (m : Scan α) : Prop := ∀ s a s', s.sc.simpleKeyAllowed = false → m s = (.ok a, s') →
  s'.sc.key = none ∨ s'.sc.key = s.sc.key

namespace Unsaved

theorem of_drops {m : Scan α} (h : Drops m) : Unsaved m := by
  intro s a s' _ hs
  have := h s
  rwa [hs] at this

theorem bind {m : Scan α} {f : α → Scan β} (hk : Keep m) (h : Unsaved m) (hf : ∀ a, Unsaved (f a)) : Unsaved (m >>= f) := by
  intro s b s' ha hs
  obtain ⟨a, s1, h1, h2⟩ := bind_ok hs
  rcases hf a s1 b s' (by rw [(hk _ _ _ h1).1]; exact ha) h2 with h3 | h3
  · exact .inl h3
  · rw [h3]
    exact h s a s1 ha h1

theorem saveKey : Unsaved Scan.saveKey := by
  intro s a s' ha hs
  unfold Scan.saveKey at hs
  obtain ⟨_, s1, h1, hs⟩ := bind_ok hs
  obtain ⟨rfl, rfl⟩ := get_ok h1
  simp only [ha, Bool.false_eq_true, ↓reduceIte] at hs
  rw [show s' = _ from (congrArg Prod.snd hs).symm]
  exact .inr rfl

theorem save {m : Unit → Scan β} (h : ∀ a, Drops (m a)) : Unsaved (Scan.saveKey >>= m) :=
  bind Keep.saveKey saveKey fun a => of_drops (h a)

theorem finish {tok : MaybeToken} {c : Cur} : Unsaved (Scan.finish tok c) :=
  save fun _ => (Drops.upd).bind fun _ => Drops.get.bind fun _ => (Drops.commit _ _).bind fun _ => Drops.get.bind fun _ => Drops.enqueue _ _

theorem flowUp : Unsaved (Scan.upd fun sc => { sc with context := sc.context.flowIncrement }) := of_drops Drops.upd

theorem run (f : Scan.Fetch) : Unsaved (Scan.run opts f) := by
  by_cases hn : f.isNode = false ∧ ∀ map, f ≠ .flowStart map
  · exact of_drops (Drops.run hn.1 hn.2)
  · cases f with
    | anchor =>
      exact bind Keep.get (of_drops Drops.get) fun _ => bind (Keep.sub _ _) (of_drops (Drops.sub _ _)) fun _ => finish
    | tag => exact bind (Keep.sub _ _) (of_drops (Drops.sub _ _)) fun _ => finish
    | quoted =>
      exact bind Keep.get (of_drops Drops.get) fun _ => bind (Keep.sub _ _) (of_drops (Drops.sub _ _)) fun _ => finish
    | plain =>
      exact bind Keep.get (of_drops Drops.get) fun _ => bind (Keep.sub _ _) (of_drops (Drops.sub _ _)) fun _ =>
        save fun _ => (Drops.upd).bind fun _ => (Drops.commit _ _).bind fun _ => Drops.enqueue _ _
    | block fold =>
      exact of_drops (Drops.removeKey.bind fun _ => (Drops.upd).bind fun _ => Drops.get.bind fun _ => (Drops.sub _ _).bind fun _ =>
        (Drops.commit _ _).bind fun _ => Drops.enqueue _ _)
    | flowStart map =>
      intro s a s' ha hs
      simp only [Scan.run, Scan.fetchFlowStart] at hs
      obtain ⟨_, s1, h1, hs⟩ := bind_ok hs
      have e1 := upd_ok h1
      have k1 : s1.sc.key = s.sc.key := by rw [e1]
      have := bind (Keep.advance 1) (of_drops (Drops.advance 1)) fun _ =>
        bind (Keep.push (if map then .FlowMappingStart else .FlowSequenceStart)) (of_drops (Drops.push _)) fun _ =>
        save (m := fun _ => Scan.upd fun sc => { sc with simpleKeyAllowed := true }) fun _ => Drops.upd
      rw [← k1]
      exact this s1 a s' (by rw [e1]; exact ha) hs
    | _ => exact absurd ⟨rfl, by simp⟩ hn

end Unsaved

end Yary
