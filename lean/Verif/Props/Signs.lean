import Verif.Proof.Scan.Signs
import Verif.Props.Scalars

/-! # The characters that stand for tokens -/

namespace Yary

open Spec

variable {opts : SFlags} {doc : List Char} {s s' : SS}

/-! ### C53 -/

/-- **C53**: the token that is scanned next is one the next characters stand for, after white space and comments. It is the last one; the
ones before it are the starts and ends of block collections and the keys that come with it. -/
theorem C53_means (h : Reach true opts (utf8 doc) s) (hst : s.sc.state = .Stream) (hs : Scan.scanNextToken opts s = (.ok (), s')) :
    ∃ n p r l e, s.buf = p ++ r ∧ Skips true s.buf n r ∧ pushedBy s s' = l ++ [e] ∧ (∀ x ∈ l, Implied x) ∧
      Stands s.sc.context.isFlow (posAfter s.sc.stats p).column r e.wrap := by
  obtain ⟨s1, n, g1, -, g3, ⟨l0, g4, g5⟩, g6, g7⟩ := step_view (by rw [hst]; simp) hs
  obtain ⟨-, hR, hst1, -⟩ := prepare_ok (reach_before ((validUtf8_iff _).2 ⟨doc, rfl⟩) h) g7
  obtain ⟨p, hp1, hp2⟩ := hR.posAfter
  simp only at hp1 hp2
  have him : ∀ x ∈ l0, Implied x := fun x hx => .inl (by rw [g5 x hx]; rfl)
  have hout : ∀ {l : List TokenEntry} {e : TokenEntry}, s'.out = s1.out ++ l ++ [e] → pushedBy s s' = (l0 ++ l) ++ [e] := by
    intro l e ho
    unfold pushedBy
    rw [ho, g4, List.append_assoc, List.append_assoc, List.drop_left, List.append_assoc]
  rcases g6 with ⟨g6, hb⟩ | ⟨f, hf, hrun, -⟩
  · have hb : s1.buf = [] := hb.resolve_right (by rw [hst1, hst]; simp)
    unfold Scan.fetchStreamEnd at g6
    obtain ⟨_, s2, h2, g6⟩ := bind_ok g6
    obtain ⟨rfl, rfl⟩ := get_ok h2
    rw [if_neg (by rw [hst1, hst]; decide), if_pos (by rw [hb]; rfl)] at g6
    obtain ⟨l, e, h1, h2, h3⟩ := (Puts.bind (S := Implied) (P := fun t => t = .Token .StreamEnd) (Adds.unroll (fun _ => .inl rfl) _) fun _ => Puts.bind Adds.removeKey fun _ =>
      Puts.bind (Adds.upd _) fun _ => Puts.push rfl) _ _ _ g6
    refine ⟨n, p, s1.buf, l0 ++ l, e, hp1, g1, hout h1, fun x hx => ?_, ?_⟩
    · rcases List.mem_append.1 hx with hx | hx
      · exact him x hx
      · exact h2 x hx
    · rw [h3]
      exact hb
  · obtain ⟨l, e, h1, h2, h3⟩ := run_stands (flow := s.sc.context.isFlow) (column := (posAfter s.sc.stats p).column)
      (by rw [hf, ← hp2, show s.sc.context.isFlow = s1.sc.context.isFlow from by unfold Context.isFlow; rw [g3]]; exact dispatch_says _ _ _)
      (by rw [hf]; exact fun h => Closed.dispatch_plain h _ rfl) hrun
    refine ⟨n, p, s1.buf, l0 ++ l, e, hp1, g1, hout h1, fun x hx => ?_, h3⟩
    rcases List.mem_append.1 hx with hx | hx
    · exact him x hx
    · rcases h2 x hx with h | h | h | ⟨-, h⟩
      · exact .inl h
      · exact .inr (.inl h)
      · exact .inr (.inr (.inl h))
      · exact .inr (.inr (.inr h))

/-- The colon after `a` gives the value, with the mapping and the key that come with it. -/
example : Reach true {} (utf8 "a: b".toList) (steps {} 2 ⟨{}, utf8 "a: b".toList, []⟩) ∧
    (steps {} 2 ⟨{}, utf8 "a: b".toList, []⟩).sc.state = .Stream ∧
    (Scan.scanNextToken {} (steps {} 2 ⟨{}, utf8 "a: b".toList, []⟩)).1 = .ok () ∧
    (pushedBy (steps {} 2 ⟨{}, utf8 "a: b".toList, []⟩) (steps {} 3 ⟨{}, utf8 "a: b".toList, []⟩)).map (·.wrap.marker) =
      [.BlockMappingStart, .Key, .Value] :=
  ⟨reach_steps 2 .start (by decide +kernel), by decide +kernel, by decide +kernel, by decide +kernel⟩

theorem bind_run_two {α β γ : Type} {a : Scan α} {b : Scan β} {f : β → Scan γ} {s s' : SS} {x : β} (h : (a >>= fun _ => b) s = (.ok x, s')) :
    (a >>= fun _ => b >>= f) s = f x s' := by
  simp only [bind, SO.bind] at h ⊢
  cases ha : a s with
  | mk o s1 =>
    rw [ha] at h
    cases o with
    | ok y => simp only at h ⊢; rw [h]
    | _ => cases h

/-- A token pushed by a step that advances over a sign. -/
theorem sign_push {l : List TokenEntry} {s1 s2 : SS} {n : Nat} {t : Str} {tok : Token} {l1 : List TokenEntry} (h4 : s1.out = s.out ++ l)
    (h5 : ∀ e ∈ l, e.wrap = .Token .BlockEnd) (ho : s2.out = s1.out ++ l1) (h6 : ∀ e ∈ l1, e.wrap = .Token .BlockEnd)
    (ha : Cur.adv ⟨s2.buf, s2.sc.stats⟩ n = .ok ⟨t, s2.sc.stats.update n 0 n⟩) :
    ∃ s', (Scan.advance n >>= fun _ => Scan.push tok) s2 = (.ok (), s') ∧ s'.buf = t ∧ Pushes s s' (.Token tok) ∧ s'.sc.key = s2.sc.key := by
  have : Scan.advance n s2 = (.ok (), { s2 with buf := t, sc := { s2.sc with stats := s2.sc.stats.update n 0 n } }) := by
    unfold Scan.advance
    rw [ha]
  rw [bind_run this]
  refine ⟨_, rfl, rfl, ⟨l ++ l1, ?_, fun e he => (List.mem_append.1 he).elim (h5 e) (h6 e)⟩, rfl⟩
  unfold pushedBy
  simp only [Scan.push, bind, SO.bind, Scan.get, SO.get, Scan.enqueue, SO.modify, ho, h4]
  rw [List.append_assoc, List.append_assoc, List.drop_left, List.append_assoc]

theorem dispatch_sign {x : Context} {column : Nat} {text r : Str} {tok : Token} (h : Sign x.isFlow column text tok r) :
    ∃ f, Scan.dispatch x column text = f ∧ match f with
      | .marker start => tok = (if start then .DocumentStart else .DocumentEnd) ∧ ∃ w, text = w ++ r ∧ w.length = 3 ∧ Ascii w
      | .flowStart map => tok = (if map then .FlowMappingStart else .FlowSequenceStart) ∧ ∃ b, text = b :: r ∧ b < 128
      | .flowEnd map => tok = (if map then .FlowMappingEnd else .FlowSequenceEnd) ∧ x.flow ≠ 0 ∧ ∃ b, text = b :: r ∧ b < 128
      | .flowEntry => tok = .FlowEntry ∧ ∃ b, text = b :: r ∧ b < 128
      | .explicitKey => tok = .Key ∧ x.flow ≠ 0 ∧ ∃ b, text = b :: r ∧ b < 128
      | _ => False := by
  cases h with
  | documentStart h ht =>
    refine ⟨.marker true, ?_, rfl, _, rfl, rfl, by unfold Ascii; decide⟩
    have hm : isWhiteSpaceZ ((bytes! "---" ++ r).drop 3) = true := signEnds_iff.2 ht
    unfold Scan.dispatch
    rw [if_neg (by simp [startsWith]), if_pos (by simp only [h, beq_self_eq_true, hm, Bool.and_true]; rfl)]
    rfl
  | documentEnd h ht =>
    refine ⟨.marker false, ?_, rfl, _, rfl, rfl, by unfold Ascii; decide⟩
    have hm : isWhiteSpaceZ ((bytes! "..." ++ r).drop 3) = true := signEnds_iff.2 ht
    unfold Scan.dispatch
    rw [if_neg (by simp [startsWith]), if_pos (by simp only [h, beq_self_eq_true, hm, Bool.and_true]; rfl)]
    rfl
  | sequenceStart => exact ⟨.flowStart false, by simp [Scan.dispatch, startsWith, startsMarker], rfl, _, rfl, by decide⟩
  | mappingStart => exact ⟨.flowStart true, by simp [Scan.dispatch, startsWith, startsMarker], rfl, _, rfl, by decide⟩
  | sequenceEnd _ h => exact ⟨.flowEnd false, by simp [Scan.dispatch, startsWith, startsMarker], rfl, by simpa [Context.isFlow] using h, _, rfl, by decide⟩
  | mappingEnd _ h => exact ⟨.flowEnd true, by simp [Scan.dispatch, startsWith, startsMarker], rfl, by simpa [Context.isFlow] using h, _, rfl, by decide⟩
  | entry => exact ⟨.flowEntry, by simp [Scan.dispatch, startsWith, startsMarker], rfl, _, rfl, by decide⟩
  | key _ h => exact ⟨.explicitKey, by simp [Scan.dispatch, startsWith, startsMarker, h], rfl, by simpa [Context.isFlow] using h, _, rfl, by decide⟩

/-- **C53**, signs: where a sign comes, the step succeeds, pushes its token, after the ends of block collections, and consumes it. -/
theorem C53_accepts (hx : opts.extendable = false) (h : Reach true opts (utf8 doc) s) (hk : ¬ KeyDue s) {text r p : Str} {tok : Token}
    (hc : Comes s text) (hp : s.buf = p ++ text) (hsign : Sign s.sc.context.isFlow (posAfter s.sc.stats p).column text tok r) :
    ∃ s', Scan.scanNextToken opts s = (.ok (), s') ∧ s'.buf = r ∧ Pushes s s' (.Token tok) := by
  have hne : text ≠ [] := by cases hsign <;> simp
  have hB := reach_before ((validUtf8_iff _).2 ⟨doc, rfl⟩) h
  have hh : HeadOk text := by
    rintro b t rfl
    cases hsign <;> first | exact .inl (by decide) | (rename_i he _; rw [← (List.cons.inj he).1]; exact .inl (by decide))
  obtain ⟨s1, l, h1, h2, h3, h4, h5, ⟨p', h6, h7⟩, h8⟩ := step_prepared hx hk hc hh hne
  obtain rfl : p = p' := List.append_cancel_right (hp.symm.trans h6)
  obtain ⟨-, -, -, g3⟩ := prepare_place h8
  have hv : validUtf8 text = true := by rw [← h2]; exact (prepare_ok hB h8).1.valid
  have hfl : s.sc.context.isFlow = s1.sc.context.isFlow := by unfold Context.isFlow; rw [g3]
  rw [hfl, ← h7] at hsign
  obtain ⟨f, hf, hfm⟩ := dispatch_sign hsign
  rw [h1, hf]
  have hnil : ∀ e ∈ ([] : List TokenEntry), e.wrap = .Token .BlockEnd := by simp
  have one : ∀ {b : Byte} {m : MStats}, text = b :: r → b < 128 → Cur.adv ⟨b :: r, m⟩ 1 = .ok ⟨r, m.update 1 0 1⟩ := by
    rintro b m rfl hb
    exact adv_prefix (p := [b]) (by simpa [Ascii] using hb) (headOk_of_valid (by rwa [validUtf8_cons hb] at hv))
  cases f with
  | marker start =>
    obtain ⟨rfl, w, rfl, hw, hwa⟩ := hfm
    simp only [Scan.run, Scan.fetchDocumentMarker]
    rw [bind_run (m := Scan.unrollIndent none) (a := ()) (s1 := (Scan.unrollIndent none s1).2) rfl]
    rw [bind_run (removeSavedKey_run (by exact h3))]
    rw [bind_run (m := Scan.upd _) (a := ()) rfl]
    obtain ⟨s', e1, e2, e3, -⟩ := sign_push (tok := if start then .DocumentStart else .DocumentEnd) (n := 3) (t := r)
      (s2 := { (Scan.unrollIndent none s1).2 with sc := { (Scan.unrollIndent none s1).2.sc with key := none, simpleKeyAllowed := false } })
      (l1 := List.replicate (s1.sc.context.indentDecrement none).2 ⟨.Token .BlockEnd, s1.sc.stats.read⟩) h4 h5 rfl
      (fun e he => by rw [List.eq_of_mem_replicate he]) (by
        show Cur.adv ⟨s1.buf, s1.sc.stats⟩ 3 = _
        rw [h2, ← hw]
        refine adv_prefix hwa (headOk_of_valid ?_)
        rwa [validUtf8_append (by exact validUtf8_ascii hwa)] at hv)
    exact ⟨s', e1, e2, e3⟩
  | flowStart map =>
    obtain ⟨rfl, b, rfl, hb⟩ := hfm
    simp only [Scan.run, Scan.fetchFlowStart]
    rw [bind_run (m := Scan.upd _) (a := ()) rfl]
    obtain ⟨s', e1, e2, ⟨l', e3, e3'⟩, e4⟩ := sign_push (tok := if map then .FlowMappingStart else .FlowSequenceStart) (n := 1) (t := r)
      (s2 := { s1 with sc := { s1.sc with context := s1.sc.context.flowIncrement } }) (l1 := []) h4 h5 (by simp) hnil (by
        show Cur.adv ⟨s1.buf, s1.sc.stats⟩ 1 = _
        rw [h2]
        exact one rfl hb)
    have hk' : ¬ KeyDue s' := by
      rintro ⟨k, hk1, hk2⟩
      exact h3 ⟨k, by rw [e4] at hk1; exact hk1, hk2⟩
    obtain ⟨s'', q1, q2, q3, q4⟩ := saveKey_run hk'
    rw [bind_run_two e1, bind_run q1]
    refine ⟨_, rfl, q2.trans e2, l', ?_, e3'⟩
    unfold pushedBy at e3 ⊢
    simp only [Scan.upd, SO.modify, q3, q4]
    exact e3
  | flowEnd map =>
    obtain ⟨rfl, hfl0, b, rfl, hb⟩ := hfm
    simp only [Scan.run, Scan.fetchFlowEnd]
    rw [bind_run (removeSavedKey_run (by exact h3)), bind_run (m := Scan.get) (a := { s1 with sc := { s1.sc with key := none } }) (s1 := { s1 with sc := { s1.sc with key := none } }) rfl]
    obtain ⟨f, hf0⟩ := Nat.exists_eq_succ_of_ne_zero hfl0
    rw [bind_run (a := { s1.sc.context with flow := f }) (s1 := { s1 with sc := { s1.sc with key := none } }) (by
      simp [SO.lift, Context.flowDecrement, hf0])]
    rw [bind_run (m := Scan.upd _) (a := ()) rfl]
    obtain ⟨s', e1, e2, e3, -⟩ := sign_push (tok := if map then .FlowMappingEnd else .FlowSequenceEnd) (n := 1) (t := r)
      (s2 := { s1 with sc := { s1.sc with key := none, context := { s1.sc.context with flow := f }, simpleKeyAllowed := false } }) (l1 := []) h4 h5 (by simp) hnil (by
        show Cur.adv ⟨s1.buf, s1.sc.stats⟩ 1 = _
        rw [h2]
        exact one rfl hb)
    exact ⟨s', e1, e2, e3⟩
  | flowEntry =>
    obtain ⟨rfl, b, rfl, hb⟩ := hfm
    simp only [Scan.run, Scan.fetchFlowEntry]
    rw [bind_run (removeSavedKey_run (by exact h3)), bind_run (m := Scan.upd _) (a := ()) rfl]
    obtain ⟨s', e1, e2, e3, -⟩ := sign_push (tok := .FlowEntry) (n := 1) (t := r)
      (s2 := { s1 with sc := { s1.sc with key := none, simpleKeyAllowed := true } }) (l1 := []) h4 h5 (by simp) hnil (by
        show Cur.adv ⟨s1.buf, s1.sc.stats⟩ 1 = _
        rw [h2]
        exact one rfl hb)
    exact ⟨s', e1, e2, e3⟩
  | explicitKey =>
    obtain ⟨rfl, hfl0, b, rfl, hb⟩ := hfm
    have hbl : s1.sc.context.isBlock = false := by simpa [Context.isBlock] using hfl0
    simp only [Scan.run, Scan.fetchExplicitKey]
    rw [bind_run (m := Scan.get) (a := s1) (s1 := s1) rfl]
    have hck : Scan.explicitKeyCheck s1 = (.ok (), s1) := by
      unfold Scan.explicitKeyCheck
      rw [bind_run (m := Scan.get) (a := s1) (s1 := s1) rfl, hbl]
      rfl
    rw [bind_run hck, bind_run (removeSavedKey_run (by exact h3)), bind_run (m := Scan.upd _) (a := ()) rfl]
    obtain ⟨s', e1, e2, e3, -⟩ := sign_push (tok := .Key) (n := 1) (t := r)
      (s2 := { s1 with sc := { s1.sc with key := none, simpleKeyAllowed := s1.sc.context.isBlock } }) (l1 := []) h4 h5 (by simp) hnil (by
        show Cur.adv ⟨s1.buf, s1.sc.stats⟩ 1 = _
        rw [h2]
        exact one rfl hb)
    exact ⟨s', e1, e2, e3⟩
  | _ => exact hfm.elim

/-- The step at `---` and the one at `[`; the step at a comma in a flow sequence. -/
example : Reach true ⟨false, false⟩ (utf8 "--- [a]".toList) (steps ⟨false, false⟩ 1 ⟨{}, utf8 "--- [a]".toList, []⟩) ∧
    ¬ KeyDue (steps ⟨false, false⟩ 1 ⟨{}, utf8 "--- [a]".toList, []⟩) ∧ Comes (steps ⟨false, false⟩ 1 ⟨{}, utf8 "--- [a]".toList, []⟩) (bytes! "--- [a]") ∧
    Sign false 0 (bytes! "--- [a]") .DocumentStart (bytes! " [a]") ∧ Sign true 3 (bytes! ",b") .FlowEntry (bytes! "b") := by
  have : utf8 "--- [a]".toList = bytes! "--- [a]" := by decide +kernel
  rw [this]
  refine ⟨reach_steps 1 .start (by decide +kernel), (fresh_comes _ (by decide)).2, (fresh_comes _ (by decide)).1, .documentStart rfl ?_, .entry _⟩
  rw [← signEnds_iff]
  rfl

theorem dispatch_reserved {x : Context} {column : Nat} {text : Str} (h : Reserved x.isFlow column text) : Scan.dispatch x column text = .unknown := by
  have hblk : x.isFlow = true → x.isBlock = false := by
    unfold Context.isFlow Context.isBlock
    intro h
    simpa using h
  cases h with
  | «at» t => simp [Scan.dispatch, startsWith, startsMarker, Scan.isPlainScalar]
  | backquote t => simp [Scan.dispatch, startsWith, startsMarker, Scan.isPlainScalar]
  | percent t h => simp [Scan.dispatch, startsWith, startsMarker, Scan.isPlainScalar, h]
  | literal t h => simp [Scan.dispatch, startsWith, startsMarker, Scan.isPlainScalar, h, hblk h]
  | folded t h => simp [Scan.dispatch, startsWith, startsMarker, Scan.isPlainScalar, h, hblk h]
  | dash t h ht =>
    obtain ⟨b, u, rfl, hb⟩ := ht
    have hfi : flowIndicator (b :: u) = true := by simpa [flowIndicator, startsWith_cons, or_assoc] using hb
    have hw : isWhiteSpaceZ (b :: u) = false := by
      simp only [List.mem_cons, List.not_mem_nil, or_false] at hb
      rcases hb with rfl | rfl | rfl | rfl | rfl <;> rfl
    have hm : startsMarker (b! '-' :: b :: u) = false := by
      simp only [List.mem_cons, List.not_mem_nil, or_false] at hb
      rcases hb with rfl | rfl | rfl | rfl | rfl <;> rfl
    simp [Scan.dispatch, startsWith_cons, hm, hw, Scan.isPlainScalar, Scan.isPlainSafe, hfi, hblk h]

/-- **C53**: no token begins with a reserved character: an error. -/
theorem C53_rejects (hx : opts.extendable = false) (hk : ¬ KeyDue s) {text p : Str}
    (hc : Comes s text) (hp : s.buf = p ++ text) (hr : Reserved s.sc.context.isFlow (posAfter s.sc.stats p).column text) :
    (Scan.scanNextToken opts s).1 = .err .UnknownDelimiter := by
  have hne : text ≠ [] := by cases hr <;> simp
  have hh : HeadOk text := by
    rintro b t rfl
    cases hr <;> exact .inl (by decide)
  obtain ⟨s1, l, h1, h2, h3, h4, h5, ⟨p', h6, h7⟩, h8⟩ := step_prepared hx hk hc hh hne
  obtain rfl : p = p' := List.append_cancel_right (hp.symm.trans h6)
  obtain ⟨-, -, -, g3⟩ := prepare_place h8
  have hfl : s.sc.context.isFlow = s1.sc.context.isFlow := by unfold Context.isFlow; rw [g3]
  rw [hfl, ← h7] at hr
  rw [h1, dispatch_reserved hr]
  rfl

/-- The step at `@a`. -/
example : ¬ KeyDue (steps ⟨false, false⟩ 1 ⟨{}, bytes! "@a", []⟩) ∧ Comes (steps ⟨false, false⟩ 1 ⟨{}, bytes! "@a", []⟩) (bytes! "@a") ∧
    Reserved false 0 (bytes! "@a") ∧ Reserved true 4 (bytes! "-]") :=
  ⟨(fresh_comes _ (by decide)).2, (fresh_comes _ (by decide)).1, .at _, .dash _ rfl ⟨_, _, rfl, by decide⟩⟩

end Yary
