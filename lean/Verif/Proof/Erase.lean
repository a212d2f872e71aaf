import Verif.Proof.Term
import Verif.Spec.Calls

/-! From the kinded grammar to the documented one, and consequences for histories of calls. -/

namespace Yary

open Spec

/-- Forget the position. -/
def Spec.KEv.erase : KEv → Ev
  | .streamStart => .streamStart
  | .streamEnd => .streamEnd
  | .docStart => .docStart
  | .docEnd => .docEnd
  | .alias => .alias
  | .scalar _ => .scalar
  | .seqStart _ => .seqStart
  | .seqEnd => .seqEnd
  | .mapStart _ => .mapStart
  | .mapEnd => .mapEnd

theorem erase_of (d : EventData) : (KEv.of d).erase = Ev.of d := by cases d <;> rfl

theorem evs_eq (es : List Event) : evs es = (kinds es).map KEv.erase := by
  simp [evs, kinds, erase_of]

theorem node_erase {ra : Prop} {k : NodeKind} {w : List KEv} (h : Kinded.Node ra k w) :
    (w = [.alias] ∧ (k = .Root → ra)) ∨ Documented.Content (w.map KEv.erase) := by
  have hn : ∀ {ra : Prop} {k : NodeKind} {u : List KEv},
      ((u = [.alias] ∧ (k = .Root → ra)) ∨ Documented.Content (u.map KEv.erase)) →
      Documented.Node (u.map KEv.erase) := by
    intro ra k u h
    rcases h with ⟨rfl, _⟩ | h
    · exact .alias
    · exact .content h
  refine Kinded.Node.rec
    (motive_1 := fun k w _ => (w = [.alias] ∧ (k = .Root → ra)) ∨
      Documented.Content (w.map KEv.erase))
    (motive_2 := fun w _ => Documented.Nodes (w.map KEv.erase))
    (motive_3 := fun w _ => Documented.Pairs (w.map KEv.erase)) ?_ ?_ ?_ ?_ ?_ ?_ ?_ ?_ h
  · exact fun h => .inl ⟨rfl, h⟩
  · exact .inr .scalar
  · exact fun _ h => .inr (by simpa [KEv.erase] using Documented.Content.sequence h)
  · exact fun _ h => .inr (by simpa [KEv.erase] using Documented.Content.mapping h)
  · exact .nil
  · intro u v _ _ h t
    rw [List.map_append]
    exact .cons (hn h) t
  · exact .nil
  · intro u v w _ _ _ k x t
    rw [List.map_append, List.map_append, ← List.append_assoc]
    exact .cons (hn k) (hn x) t

theorem document_erase {ra : Prop} {w : List KEv} (h : Kinded.Document ra w) :
    Documented.Document ra (w.map KEv.erase) := by
  cases h with
  | empty => exact .empty
  | content h =>
    rcases node_erase h with ⟨rfl, ha⟩ | h
    · exact .alias (ha rfl)
    · simpa [KEv.erase] using Documented.Document.content h

theorem stream_erase {ra : Prop} {w : List KEv} (h : Kinded.Stream ra w) :
    Documented.Stream ra (w.map KEv.erase) := by
  obtain ⟨docs, hne, hd, rfl⟩ := h
  refine ⟨docs.map (List.map KEv.erase), by simpa using hne, ?_, by simp [KEv.erase, List.map_flatten]⟩
  intro d hmem
  obtain ⟨d', hm', rfl⟩ := List.mem_map.mp hmem
  exact document_erase (hd d' hm')

section Calls

variable {σ : Type} {drive : Drive σ}

theorem yields_run {s s' : PS σ} {es : List Event} (h : Yields drive s es s') :
    Run s.parser es s'.parser := by
  induction h with
  | nil => exact .nil _
  | cons fuel h t ih => exact .cons (Parser.nextEvent_next h) ih

theorem finished_done {s : PS σ} (h : Finished drive s) : s.parser.done = true := by
  obtain ⟨fuel, s', h⟩ := h
  exact (next_none (Parser.nextEvent_next h)).1

theorem hasRootAlias_iff {es : List Event} : Yary.HasRootAlias (kevs es) → Spec.HasRootAlias es := by
  rintro ⟨u, v, h⟩
  refine ⟨u.map KEv.erase, v.map KEv.erase, ?_⟩
  rw [evs_eq, show kinds es = kevs es from rfl, h]
  simp [KEv.erase]

theorem yields_stream {src : σ} {es : List Event} {s : PS σ} (h : Yields drive (start src) es s)
    (ra : Prop) (hra : Spec.HasRootAlias es → ra) :
    (∃ rest, Kinded.Stream ra (kinds es ++ rest)) ∧
    (Finished drive s → Kinded.Stream ra (kinds es)) := by
  have := run_stream (yields_run h) ra fun h => hra (hasRootAlias_iff h)
  exact ⟨this.1, fun hf => this.2 (finished_done hf)⟩

/-! ### No stray stream marks -/

theorem content_marks {w : List Ev} (h : Documented.Content w) :
    ∀ e ∈ w, e ≠ .streamStart ∧ e ≠ .streamEnd ∧ e ≠ .docStart ∧ e ≠ .docEnd := by
  let P : List Ev → Prop := fun w =>
    ∀ e ∈ w, e ≠ .streamStart ∧ e ≠ .streamEnd ∧ e ≠ .docStart ∧ e ≠ .docEnd
  have happ : ∀ {u v : List Ev}, P u → P v → P (u ++ v) := by
    intro u v hu hv e he
    rcases List.mem_append.mp he with he | he
    · exact hu e he
    · exact hv e he
  refine Documented.Content.rec (motive_1 := fun w _ => P w) (motive_2 := fun w _ => P w)
    (motive_3 := fun w _ => P w) (motive_4 := fun w _ => P w) ?_ ?_ ?_ ?_ ?_ ?_ ?_ ?_ ?_ h
  · simp [P]
  · intro w _ h
    exact happ (u := [_] ++ w) (happ (by simp [P]) h) (by simp [P])
  · intro w _ h
    exact happ (u := [_] ++ w) (happ (by simp [P]) h) (by simp [P])
  · simp [P]
  · exact fun _ h => h
  · simp [P]
  · exact fun _ _ h t => happ h t
  · simp [P]
  · exact fun _ _ _ k x t => happ (happ k x) t

theorem document_marks {ra : Prop} {w : List Ev} (h : Documented.Document ra w) :
    ∀ e ∈ w, e ≠ .streamStart ∧ e ≠ .streamEnd := by
  cases h with
  | empty => simp
  | alias => simp
  | content h =>
    have := content_marks h
    intro e he
    simp only [List.cons_append, List.mem_cons, List.mem_append, List.not_mem_nil, or_false] at he
    rcases he with rfl | he | rfl
    · simp
    · exact ⟨(this e he).1, (this e he).2.1⟩
    · simp

/-- A stream is a start, something without stream marks, and an end. -/
theorem stream_shape {ra : Prop} {w : List Ev} (h : Documented.Stream ra w) :
    ∃ m, w = .streamStart :: m ++ [.streamEnd] ∧ ∀ e ∈ m, e ≠ .streamStart ∧ e ≠ .streamEnd := by
  obtain ⟨docs, hne, hd, rfl⟩ := h
  refine ⟨docs.flatten, rfl, ?_⟩
  intro e he
  obtain ⟨d, hd', he⟩ := List.mem_flatten.mp he
  exact document_marks (hd d hd') e he

/-- A stream of the strict grammar has no alias right after a document start. -/
theorem stream_no_rootAlias {w : List Ev} (h : Documented.Stream False w) :
    ¬ ∃ u v, w = u ++ .docStart :: .alias :: v := by
  obtain ⟨docs, hne, hd, rfl⟩ := h
  -- In a strict document the only start is the first event and no alias follows it.
  have hdoc : ∀ d, Documented.Document False d →
      ∃ x rest, d = .docStart :: x :: rest ∧ x ≠ .alias ∧ ∀ e ∈ x :: rest, e ≠ .docStart := by
    intro d hd
    cases hd with
    | empty => exact ⟨_, _, rfl, by simp, by simp⟩
    | alias h => exact h.elim
    | @content c h =>
      have hm := content_marks h
      cases h with
      | scalar => exact ⟨_, _, rfl, by simp, by simp⟩
      | @sequence w h =>
        refine ⟨_, _, rfl, by simp, fun e he => ?_⟩
        rcases List.mem_append.mp
          (show e ∈ (.seqStart :: w ++ [.seqEnd]) ++ [.docEnd] from he) with he | he
        · exact (hm e he).2.2.1
        · simp only [List.mem_singleton] at he
          simp [he]
      | @mapping w h =>
        refine ⟨_, _, rfl, by simp, fun e he => ?_⟩
        rcases List.mem_append.mp
          (show e ∈ (.mapStart :: w ++ [.mapEnd]) ++ [.docEnd] from he) with he | he
        · exact (hm e he).2.2.1
        · simp only [List.mem_singleton] at he
          simp [he]
  have key : ∀ docs : List (List Ev), (∀ d ∈ docs, Documented.Document False d) →
      ∀ u v, docs.flatten ++ [.streamEnd] ≠ u ++ .docStart :: .alias :: v := by
    intro docs
    induction docs with
    | nil =>
      intro _ u v h
      have := congrArg List.length h
      simp at this
      omega
    | cons d docs ih =>
      intro hds u v h
      obtain ⟨x, rest, rfl, hx, hr⟩ := hdoc d (hds d (by simp))
      simp only [List.flatten_cons, List.append_assoc] at h
      rcases List.append_eq_append_iff.mp h with ⟨a, ha, hb⟩ | ⟨a, ha, hb⟩
      · exact ih (fun d hd => hds d (by simp [hd])) a v hb
      · cases u with
        | nil =>
          simp only [List.nil_append] at ha
          subst ha
          simp only [List.cons_append, List.cons.injEq, true_and] at hb
          exact hx hb.1.symm
        | cons u0 us =>
          simp only [List.cons_append, List.cons.injEq] at ha
          obtain ⟨-, ha⟩ := ha
          cases a with
          | nil =>
            refine ih (fun d hd => hds d (by simp [hd])) [] v ?_
            simpa using hb.symm
          | cons a0 as =>
            simp only [List.cons_append, List.cons.injEq] at hb
            have : a0 ∈ x :: rest := by rw [ha]; simp
            exact hr a0 this hb.1.symm
  rintro ⟨u, v, h⟩
  cases u with
  | nil => simp at h
  | cons u0 us =>
    simp only [List.cons_append, List.cons.injEq] at h
    exact key docs hd us v h.2

/-! ### Directives and tags along a history -/

theorem next_trans {p p' : Parser} {e : Event} (h : Next p (some e) p') :
    p'.directives = dirsAfter p.directives (some e) ∧ tagOk p.directives.tags e.data := by
  generalize he : some e = ev at h
  induction h with
  | done h => simp at he
  | some h t =>
    cases he
    exact ⟨t.dirs, t.tags _ rfl⟩
  | skip h t n ih =>
    have := ih he
    have hd := t.dirs
    simp only [dirsAfter] at hd
    rw [hd] at this
    exact this

theorem run_split {p p' : Parser} {u v : List Event} {e : Event}
    (h : Run p (u ++ e :: v) p') : ∃ q q', Run p u q ∧ Next q (some e) q' ∧ Run q' v p' := by
  induction u generalizing p with
  | nil =>
    cases h with
    | cons h t => exact ⟨p, _, .nil p, h, t⟩
  | cons a u ih =>
    cases h with
    | cons h t =>
      obtain ⟨q, q', h1, h2, h3⟩ := ih t
      exact ⟨q, q', .cons h h1, h2, h3⟩

theorem run_dirs {p p' : Parser} {es : List Event} (h : Run p es p') :
    p'.directives = (activeDirectives es).getD p.directives := by
  induction h with
  | nil => rfl
  | @cons p p' p'' e es h t ih =>
    rw [ih]
    have h1 := (next_trans h).1
    rw [activeDirectives]
    cases ha : activeDirectives es with
    | some d => rfl
    | none =>
      obtain ⟨a, b, d⟩ := e
      cases d <;> simpa [dirsAfter] using h1

/-- Nodes only occur inside a document. -/
theorem stream_node_inside {ra : Prop} {w : List Ev} (h : Documented.Stream ra w)
    {u v : List Ev} {e : Ev} (hw : w = u ++ e :: v)
    (he : e = .scalar ∨ e = .seqStart ∨ e = .mapStart) : .docStart ∈ u := by
  obtain ⟨docs, hne, hd, rfl⟩ := h
  cases docs with
  | nil => simp at hne
  | cons d docs =>
    have hd1 := hd d (by simp)
    have : ∃ rest, d = .docStart :: rest := by
      cases hd1 with
      | _ => exact ⟨_, rfl⟩
    obtain ⟨rest, rfl⟩ := this
    cases u with
    | nil =>
      simp only [List.nil_append, List.cons_append, List.cons.injEq] at hw
      rcases he with rfl | rfl | rfl <;> simp at hw
    | cons u0 us =>
      simp only [List.cons_append, List.cons.injEq, List.flatten_cons] at hw
      cases us with
      | nil =>
        simp only [List.nil_append, List.cons.injEq] at hw
        rcases he with rfl | rfl | rfl <;> simp at hw
      | cons u1 us =>
        simp only [List.cons_append, List.cons.injEq] at hw
        simp [hw.2.1.symm]

theorem activeDirectives_of_mem {es : List Event} (h : .docStart ∈ evs es) :
    ∃ d, activeDirectives es = some d := by
  induction es with
  | nil => simp [evs] at h
  | cons e es ih =>
    rw [activeDirectives]
    cases ha : activeDirectives es with
    | some d => exact ⟨d, rfl⟩
    | none =>
      simp only [evs, List.map_cons, List.mem_cons] at h
      rcases h with h | h
      · obtain ⟨a, b, d⟩ := e
        cases d with
        | DocumentStart d i => exact ⟨d, rfl⟩
        | _ => exact absurd h (by simp [Ev.of])
      · obtain ⟨d, hd⟩ := ih h
        rw [hd] at ha
        simp at ha

theorem tagMap_get_mem {m : TagMap} {k : Str} (h : (m.get k).isSome) : ∃ p, (k, p) ∈ m := by
  unfold TagMap.get at h
  simp only [Option.isSome_map] at h
  obtain ⟨x, hx⟩ := Option.isSome_iff_exists.mp h
  have h1 := List.mem_of_find?_eq_some hx
  have h2 := List.find?_some hx
  obtain ⟨a, b⟩ := x
  simp only [beq_iff_eq] at h2
  exact ⟨b, h2 ▸ h1⟩

theorem calls_inv {s s' : PS σ} {os : List (Out ParseError (Option Event))}
    (h : Calls drive s os s') (hi : Parser.Inv s) : Parser.Inv s' := by
  induction h with
  | nil => exact hi
  | cons fuel h hd t ih =>
    refine ih ?_
    have := (Parser.nextEventLoop_safe (drive := drive) (fuel := fuel) (n := fuel) (.inl hi)).1
    rw [show Parser.nextEventLoop drive fuel fuel = Parser.nextEvent drive fuel from rfl, h] at this
    exact this hd

end Calls

end Yary
