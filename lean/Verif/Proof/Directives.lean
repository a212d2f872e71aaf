import Verif.Proof.TraceDoc

/-! Duplicate directives are errors, whatever the source. -/

namespace Yary

open Spec PM

variable {σ : Type} {drive : Drive σ}

theorem Spec.Ahead.of_peeked {p q : PeekReader σ} {t : TokenEntry} {l : List TokenEntry}
    (h : Ahead drive p (t :: l)) (hq : p.peek drive = (.ok (some t), q)) :
    q.peeked = some t ∧ Ahead drive q (t :: l) ∧ Ahead drive { q with peeked := none } l := by
  obtain ⟨q', h1, h2⟩ := h
  rw [hq] at h1
  simp only [Prod.mk.injEq, true_and] at h1
  subst h1
  have hp := PeekReader.peek_peeked hq
  exact ⟨hp, ⟨q, PeekReader.peek_of_peeked hp, h2⟩, h2⟩

namespace Parser

theorem peek_ahead {s : PS σ} {t : TokenEntry} {l : List TokenEntry}
    (h : Ahead drive s.tokens (t :: l)) :
    ∃ q, PM.peek drive s = (.ok t, { s with tokens := q }) ∧ q.peeked = some t ∧
      Ahead drive q (t :: l) ∧ Ahead drive { q with peeked := none } l := by
  obtain ⟨q, h1, h2⟩ := id h
  refine ⟨q, ?_, h.of_peeked h1⟩
  simp [PM.peek, PM.peekMaybe, PM.onTokens, bind, SO.bind, h1, pure, SO.pure]

theorem pop_peeked_eq {s : PS σ} {t : TokenEntry} (h : s.tokens.peeked = some t) :
    PM.pop drive s = (.ok t, { s with tokens := { s.tokens with peeked := none } }) := by
  simp [PM.pop, PM.onTokens, bind, SO.bind, PeekReader.pop_of_peeked h, pure, SO.pure]

/-- One `%YAML` and no handle twice, nor one of the default handles. -/
structure Fine (ts : List TokenEntry) : Prop where
  version : (versions ts).length ≤ 1
  tags : ((knownTags ++ tagPairs ts).map (·.1)).Nodup

/-- The errors duplicates lead to. -/
def DupErr (ts : List TokenEntry) (x : ParseError) : Prop :=
  x = .DuplicateVersion ∧ 2 ≤ (versions ts).length ∨
  x = .DuplicateTagDirective ∧ ¬ ((knownTags ++ tagPairs ts).map (·.1)).Nodup

theorem Seen.fine {ts : List TokenEntry} {b : Bool} {d : Directives} (h : Seen ts b d) :
    Fine ts := by
  refine ⟨?_, h.distinct⟩
  cases b with
  | false => simp [(h.fresh rfl).1]
  | true => simp [h.once rfl]

theorem scanDirectivesLoop_dup {pre dirs : List TokenEntry} {seen : Bool} {d : Directives}
    (hS : Seen pre seen d) (hd : ∀ t ∈ dirs, isDirective t = true) (hbad : ¬ Fine (pre ++ dirs))
    {s : PS σ} (ha : Ahead drive s.tokens dirs) {fuel stop : Nat} (hf : dirs.length ≤ fuel) :
    ∃ x s', scanDirectivesLoop drive fuel stop seen d s = (.err x, s') ∧
      DupErr (pre ++ dirs) x := by
  induction dirs generalizing pre seen d s fuel stop with
  | nil => exact absurd hS.fine (by simpa using hbad)
  | cons t dirs ih =>
    obtain ⟨q, h1, h2, -, h4⟩ := peek_ahead ha
    cases fuel with
    | zero => simp at hf
    | succ n =>
      have hcons : pre ++ t :: dirs = pre ++ [t] ++ dirs := by simp
      have hdt := hd t (by simp)
      have hd' : ∀ t ∈ dirs, isDirective t = true := fun t ht => hd t (by simp [ht])
      have hn : dirs.length ≤ n := by simpa using hf
      simp only [isDirective, Bool.or_eq_true, beq_iff_eq] at hdt
      unfold scanDirectivesLoop
      simp only [bind, SO.bind, h1]
      rcases hdt with hm | hm
      · obtain ⟨a, b, hw⟩ := marker_version hm
        rw [hm]
        simp only
        cases seen with
        | true =>
          refine ⟨.DuplicateVersion, _, rfl, Or.inl ⟨rfl, ?_⟩⟩
          obtain ⟨w, r⟩ := t
          simp only at hw
          subst hw
          simp [versions_append, hS.once rfl, versions]
        | false =>
          obtain ⟨x, s', hx, hx'⟩ := ih (hS.version hw) hd' (by rwa [← hcons])
            (s := { s with tokens := { q with peeked := none } }) h4 (stop := t.readAt) hn
          refine ⟨x, s', ?_, by rwa [hcons]⟩
          simp only [Bool.not_false, if_true, consumeVersion, bind, SO.bind,
            pop_peeked_eq (s := { s with tokens := q }) h2, hw, pure, SO.pure]
          exact hx
      · obtain ⟨a, b, hw⟩ := marker_tagDirective hm
        rw [hm]
        simp only [consumeTagDirective, bind, SO.bind,
          pop_peeked_eq (s := { s with tokens := q }) h2, hw, pure, SO.pure]
        split
        · next hg =>
          refine ⟨.DuplicateTagDirective, _, rfl, Or.inr ⟨rfl, ?_⟩⟩
          obtain ⟨w, r⟩ := t
          simp only at hw
          subst hw
          intro hnd
          unfold TagMap.get at hg
          rw [Option.isSome_map, List.find?_isSome] at hg
          obtain ⟨⟨k, p⟩, hk, hka⟩ := hg
          simp only [beq_iff_eq] at hka
          subst hka
          have hk := (hS.tags _ _).mp hk
          rw [tagPairs_append] at hnd
          simp only [tagPairs, ← List.append_assoc, List.map_append, List.map_cons] at hnd
          rw [List.nodup_append] at hnd
          refine hnd.2.2 k ?_ k (by simp) rfl
          rw [← List.map_append, List.mem_map]
          exact ⟨(k, p), by simpa using hk, rfl⟩
        · next hg =>
          obtain ⟨x, s', hx, hx'⟩ := ih (hS.tag hw hg) hd' (by rwa [← hcons])
            (s := { s with tokens := { q with peeked := none } }) h4 (stop := t.readAt) hn
          exact ⟨x, s', hx, by rwa [hcons]⟩

theorem documentStart_dup {dirs : List TokenEntry} (hd : ∀ t ∈ dirs, isDirective t = true)
    (hbad : ¬ Fine dirs) {s : PS σ} (ha : Ahead drive s.tokens dirs) {fuel : Nat}
    (hf : dirs.length ≤ fuel) {i f : Bool} :
    ∃ x s', documentStart drive fuel i f s = (.err x, s') ∧ DupErr dirs x := by
  cases dirs with
  | nil => exact absurd seen_nil.fine hbad
  | cons t dirs =>
    have hdt := hd t (by simp)
    simp only [isDirective, Bool.or_eq_true, beq_iff_eq] at hdt
    have hne : t.marker ≠ .DocumentEnd ∧ t.marker ≠ .StreamEnd := by
      rcases hdt with h | h <;> simp [h]
    -- the skipping loop
    have h0 : ∃ s1 : PS σ, skipEndsIf drive fuel i s = (.ok (), s1) ∧
        Ahead drive s1.tokens (t :: dirs) := by
      unfold skipEndsIf
      split
      · exact ⟨s, rfl, ha⟩
      · cases fuel with
        | zero => simp at hf
        | succ n =>
          obtain ⟨q, h1, h2, h3, -⟩ := peek_ahead ha
          refine ⟨{ s with tokens := q }, ?_, h3⟩
          unfold skipDocumentEnds
          simp [bind, SO.bind, h1, hne.1, pure, SO.pure]
    obtain ⟨s1, h1, ha1⟩ := h0
    obtain ⟨q, h2, h3, ha2, -⟩ := peek_ahead ha1
    obtain ⟨q', h4, h5, ha3, -⟩ := peek_ahead (s := { s1 with tokens := q }) ha2
    obtain ⟨x, s', hx, hx'⟩ := scanDirectivesLoop_dup (pre := []) seen_nil hd hbad
      (s := { s1 with tokens := q' }) ha3 (stop := t.readAt) hf
    refine ⟨x, s', ?_, hx'⟩
    unfold documentStart
    have hs : scanDocumentDirectives drive fuel { s1 with tokens := q } = (.err x, s') := by
      simp only [scanDocumentDirectives, bind, SO.bind, h4, hx]
    rcases hdt with h | h <;> simp [bind, SO.bind, h1, h2, h, hs]

theorem nextEvent_dup {dirs : List TokenEntry} (hd : ∀ t ∈ dirs, isDirective t = true)
    (hbad : ¬ Fine dirs) {s : PS σ} (ha : Ahead drive s.tokens dirs) {fuel : Nat}
    (hf : dirs.length ≤ fuel) {i f : Bool} (ht : s.parser.state.top = .DocumentStart i f)
    (hdone : s.parser.done = false) :
    ∃ x s', nextEvent drive fuel s = (.err x, s') ∧ DupErr dirs x := by
  obtain ⟨x, s', h1, h2⟩ := documentStart_dup hd hbad ha hf (i := i) (f := f)
  refine ⟨x, s', ?_, h2⟩
  have : dirs ≠ [] := by
    rintro rfl
    exact hbad seen_nil.fine
  cases fuel with
  | zero =>
    cases dirs with
    | nil => exact absurd rfl this
    | cons a b => simp at hf
  | succ n =>
    simp only [nextEvent, nextEventLoop, bind, SO.bind, SO.get, hdone, Bool.false_eq_true,
      if_false, stateTransition, ht, h1]

end Parser

/-- After `StreamStart` or `DocumentEnd` the parser waits for a document. -/
theorem next_docStart {p p' : Parser} {e : Event} (h : Next p (some e) p')
    (he : Ev.of e.data = .streamStart ∨ Ev.of e.data = .docEnd) :
    (∃ i f, p'.state.top = .DocumentStart i f) ∧ p'.done = false := by
  generalize hev : some e = ev at h
  induction h with
  | done h => simp at hev
  | @some p p' e' h t =>
    cases hev
    have hst := t.step
    generalize p.state = m at hst
    generalize p'.state = m' at hst ⊢
    generalize p'.done = b at hst ⊢
    obtain ⟨a, b', d⟩ := e
    cases d with
    | StreamStart enc =>
      simp only [Option.map_some, KEv.of] at hst
      cases hst
      · exact ⟨⟨_, _, rfl⟩, rfl⟩
      all_goals (rename_i hn; cases hn)
    | DocumentEnd i =>
      simp only [Option.map_some, KEv.of] at hst
      cases hst
      · exact ⟨⟨_, _, rfl⟩, rfl⟩
      all_goals (rename_i hn; cases hn)
    | _ => simp [Ev.of] at he
  | skip h t n ih => exact ih hev

end Yary
