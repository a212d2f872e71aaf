import Verif.Proof.Scan.Nest
import Verif.Proof.Scan.Keys
import Verif.Props.Scanner

/-! # Flow and block collections in the tokens of any text

The tokens handed out by any history of peeks and pops on any text, going on after errors, as long
as no call panicked. -/

namespace Yary

open Spec

variable {opts : SFlags} {text : List Char} {ops : List ROp}

/-- The tokens up to some point are nested. -/
theorem prefix_nested (h : NoPanic (history opts text ops)) {pre post : List Marker}
    (he : kindsHanded (history opts text ops) = pre ++ post) :
    ∃ a b f n, a.map TokenEntry.marker = pre ∧ b.map TokenEntry.marker = post ∧
      nest (0, 0) a = some (f, n) ∧ ∃ st, nest (f, n) b = some st := by
  obtain ⟨a, b, h1, h2, h3⟩ := List.map_eq_append_iff.1 he
  obtain ⟨st, hst⟩ := handed_nested h
  rw [h1, nest_append] at hst
  cases hn : nest (0, 0) a with
  | none => rw [hn] at hst; cases hst
  | some x =>
    rw [hn] at hst
    exact ⟨a, b, x.1, x.2, h2, h3, hn, st, hst⟩

/-! ### C22 -/

/-- **C22**: at no point have more flow collections ended than started. -/
theorem C22_flow_balanced (h : NoPanic (history opts text ops)) {pre : List Marker}
    (hp : pre <+: kindsHanded (history opts text ops)) :
    pre.countP isFlowEnd ≤ pre.countP isFlowStart := by
  obtain ⟨post, hp⟩ := hp
  obtain ⟨a, b, f, n, rfl, -, hn, -⟩ := prefix_nested h hp.symm
  have := nest_counts hn
  omega

/-- **C22**: no block collection starts inside an open flow collection. -/
theorem C22_no_block_in_flow (h : NoPanic (history opts text ops)) {pre post : List Marker} {m : Marker}
    (he : kindsHanded (history opts text ops) = pre ++ m :: post) (hm : isBlockStart m = true) :
    pre.countP isFlowStart = pre.countP isFlowEnd := by
  obtain ⟨a, b, f, n, rfl, h2, hn, st, hst⟩ := prefix_nested h he
  obtain ⟨x, b', rfl, rfl, -⟩ := List.map_eq_cons_iff.1 h2
  have hc := nest_counts hn
  have hf : f = 0 := by
    simp only [nest] at hst
    cases hs : nestStep (f, n) x.marker with
    | none => rw [hs] at hst; cases hst
    | some y =>
      unfold nestStep at hs
      generalize x.marker = mk at hm hs
      cases mk <;> simp [isFlowStart, isFlowEnd, isBlockStart, isBlockEnd] at hm hs
      · exact hs.1
      · exact hs.1
  omega

/-- A text with flow and block collections; the first history ends in an error at the unmatched
bracket. -/
example : kindsHanded (history {} "a: [b, {c: d}]\ne:\n- f\n] g".toList (List.replicate 24 .pop)) =
    [.StreamStart] ++ .BlockMappingStart :: [.Key, .Scalar, .Value, .FlowSequenceStart, .Scalar, .FlowEntry,
      .FlowMappingStart, .Key, .Scalar, .Value, .Scalar, .FlowMappingEnd, .FlowSequenceEnd, .Key, .Scalar,
      .Value, .BlockSequenceStart, .BlockEntry, .Scalar, .BlockEnd] := by
  decide +kernel

/-- **C22**: a closing flow bracket outside of flow collections is an error. -/
theorem C22_unmatched_close {s : SS} {b : Byte} {t : Str} (hstate : s.sc.state = .Stream)
    (hv : validUtf8 s.buf = true) (hbuf : s.buf = b :: t) (hb : b = b! ']' ∨ b = b! '}') (hflow : s.sc.context.flow = 0) :
    ∃ e s', Scan.scanNextToken opts s = (.err e, s') := by
  suffices h : Holds False (Scan.scanNextToken opts) s (fun _ _ => False) (fun _ => True) by
    unfold Holds at h
    generalize Scan.scanNextToken opts s = r at h
    obtain ⟨o, s'⟩ := r
    cases o with
    | err e => exact ⟨e, s', rfl⟩
    | _ => exact h.elim
  have hb1 : b = 0x5D ∨ b = 0x7D := hb
  have hws : ∀ m, eatWs opts true ⟨s.buf, m⟩ = .ok ⟨s.buf, m⟩ := by
    intro m
    rw [hbuf]
    rcases hb1 with rfl | rfl <;>
      exact eatWs_none opts m (by rfl) (by rfl) (by rfl) (by simp [widthOf])
  unfold Scan.scanNextToken
  rw [Holds.bind_iff, Holds.get_iff]
  simp only [hstate, show (StreamState.Stream == StreamState.Start) = false from rfl, Bool.false_eq_true,
    ↓reduceIte]
  have hprep : Holds False (Scan.prepare opts) s
      (fun _ s' => s'.buf = s.buf ∧ s'.sc.context.flow = 0 ∧ s'.sc.state = .Stream) (fun _ => True) := by
    have hC := closed_plainly
    have hE : ∀ {α : Type} {m : Scan α} {s : SS} {Q : α → SS → Prop}, Holds False m s Q Plainly →
        Holds False m s Q (fun _ => True) := by
      intro α m s Q h
      unfold Holds at h ⊢
      generalize m s = r at h
      obtain ⟨o, s'⟩ := r
      cases o <;> first | trivial | exact h
    unfold Scan.prepare
    refine Holds.bind (Q := fun _ s' => s'.buf = s.buf ∧ s'.sc.context.flow = 0 ∧ s'.sc.state = .Stream) ?_ ?_
    · unfold Scan.eatWhitespace Scan.sub
      simp only [Holds.bind_iff, Holds.get_iff, hws, Holds.upd_iff]
      refine Holds.lift (R := fun c => c = (⟨s.buf, {}⟩ : Cur)) (by simp [Out.Sat]) trivial ?_
      rintro c rfl
      have hbd : isBoundary s.buf (s.buf.length - s.buf.length) = true := by simp [isBoundary]
      simp only [Holds, Scan.commit]
      simp only [hbd, ↓reduceIte]
      exact ⟨trivial, hflow, hstate⟩
    · rintro _ s1 ⟨h1, h2, h3⟩
      refine (hE (hC.expireKey (show Plainly s1 from by unfold Plainly; rw [h1]; exact hv))).bind ?_
      rintro _ s2 ⟨h4, h5, -⟩
      rw [Holds.bind_iff, Holds.get_iff]
      refine (hE (hC.unroll _ h4)).bind ?_
      rintro _ s3 ⟨h6, h7, -, -⟩
      refine (hE (hC.popZero h6)).mono ?_
      rintro _ s4 ⟨-, h8, -⟩
      have hs := (h5.trans h7).trans h8
      exact ⟨hs.buf.trans h1, hs.flow.trans h2, hs.state.trans h3⟩
  refine hprep.bind ?_
  rintro _ s1 ⟨h1, h2, h3⟩
  unfold Scan.fetchNext
  rw [Holds.bind_iff, Holds.get_iff]
  have hne : (s1.buf.isEmpty || s1.sc.state == .Done) = false := by rw [h1, hbuf, h3]; rfl
  simp only [hne, Bool.false_eq_true, ↓reduceIte]
  refine Holds.bind (Holds.lift (Q := fun _ s' => s' = s1) (cache_sat opts 4 s1.buf) trivial
    fun _ _ => rfl) ?_
  rintro _ s2 rfl
  have hd : ∃ map, Scan.dispatch s2.sc.context s2.sc.stats.column s2.buf = .flowEnd map := by
    rw [h1, hbuf]
    unfold Scan.dispatch
    rcases hb1 with rfl | rfl
    · exact ⟨false, by simp [startsWith, startsMarker]⟩
    · exact ⟨true, by simp [startsWith, startsMarker]⟩
  obtain ⟨map, hd⟩ := hd
  rw [hd]
  simp only [Scan.run, Scan.fetchFlowEnd, Scan.removeSavedKey, Holds.bind_iff, Holds.takeKey_iff]
  have hlast : ∀ s' : SS, s'.sc.context.flow = 0 → Holds False (SO.lift s'.sc.context.flowDecrement : Scan Context) s'
      (fun _ _ => False) (fun _ => True) := by
    intro s' h
    simp [Context.flowDecrement, h, SO.lift, Holds]
  split
  · split
    · trivial
    · simp only [Holds.pure_iff, Holds.get_iff]
      exact (hlast { s2 with sc := { s2.sc with key := none } } h2).mono fun _ _ h => h.elim
  · simp only [Holds.pure_iff, Holds.get_iff]
    exact (hlast { s2 with sc := { s2.sc with key := none } } h2).mono fun _ _ h => h.elim
example : ∃ e s', Scan.scanNextToken {} ⟨{ state := .Stream, key := some (.new {} true) }, utf8 "]: a".toList, []⟩ =
    (.err e, s') :=
  C22_unmatched_close rfl (by decide +kernel) rfl (.inl rfl) rfl

/-! ### C23 -/

/-- **C23**: at no point have more block collections ended than started. -/
theorem C23_block_balanced (h : NoPanic (history opts text ops)) {pre : List Marker}
    (hp : pre <+: kindsHanded (history opts text ops)) :
    pre.countP isBlockEnd ≤ pre.countP isBlockStart := by
  obtain ⟨post, hp⟩ := hp
  obtain ⟨a, b, f, n, rfl, -, hn, -⟩ := prefix_nested h hp.symm
  have := nest_counts hn
  omega

/-- **C23**: at a document marker, a directive or the end of the stream outside of flow collections,
every block collection has ended. -/
theorem C23_all_closed_between (h : NoPanic (history opts text ops)) {pre post : List Marker} {m : Marker}
    (he : kindsHanded (history opts text ops) = pre ++ m :: post) (hm : isBetween m = true)
    (hflow : pre.countP isFlowStart = pre.countP isFlowEnd) :
    pre.countP isBlockStart = pre.countP isBlockEnd := by
  obtain ⟨a, b, f, n, rfl, h2, hn, st, hst⟩ := prefix_nested h he
  obtain ⟨x, b', rfl, rfl, -⟩ := List.map_eq_cons_iff.1 h2
  have hc := nest_counts hn
  have hf : f = 0 := by omega
  have hf : n = 0 := by
    simp only [nest] at hst
    cases hs : nestStep (f, n) x.marker with
    | none => rw [hs] at hst; cases hst
    | some y =>
      unfold nestStep at hs
      generalize x.marker = mk at hm hs
      subst hf
      cases mk <;> simp [isFlowStart, isFlowEnd, isBlockStart, isBlockEnd, isBetween] at hm hs <;>
        exact hs.1
  omega

example : kindsHanded (history {} "a:\n- b\n---\n- c: d".toList (List.replicate 24 .pop)) =
    [.StreamStart, .BlockMappingStart, .Key, .Scalar, .Value, .BlockSequenceStart, .BlockEntry, .Scalar,
      .BlockEnd, .BlockEnd] ++ .DocumentStart :: [.BlockEntry, .BlockMappingStart, .Key, .Scalar, .Value,
      .Scalar, .BlockEnd, .StreamEnd] := by
  decide +kernel

end Yary
