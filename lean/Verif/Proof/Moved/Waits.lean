import Verif.Proof.Scan.LastEnd
import Verif.Props.Sound

/-! # What a reader has when it handed out the end of a document -/

namespace Yary

open Spec

variable {σ : Type} {drive : Drive σ}

theorem pop_increment (q : Queue TokenEntry) : q.pop.2.increment = q.increment := by
  unfold Queue.pop
  cases Queue.popLeast q.heap <;> rfl

theorem pushes_increment : ∀ (b : List TokenEntry) (q : Queue TokenEntry), (b.foldl Queue.push q).increment = q.increment + b.length
  | [], _ => rfl
  | e :: b, q => by
    rw [List.foldl_cons, pushes_increment b (q.push e), List.length_cons]
    show q.increment + 1 + _ = _
    omega

/-- A peek leaves what is waiting, or, if nothing is, asks the source once. -/
theorem peek_waits {p q : PeekReader σ} {r : Option TokenEntry} (hl : ∃ l, p.reader.queue.Rep l) (h : p.peek drive = (.ok r, q)) :
    q.peeked = r ∧ (∃ l, q.reader.queue.Rep l) ∧ ((q.reader.src = p.reader.src ∧ waiting q = waiting p ∧ q.reader.exhausted = p.reader.exhausted ∧ q.reader.queue.increment = p.reader.queue.increment) ∨
      (waiting p = [] ∧ ∃ b, drive p.reader.src = (.ok (), b, q.reader.src) ∧ waiting q = deliver b ∧ q.reader.exhausted = b.isEmpty ∧
        q.reader.queue.increment = p.reader.queue.increment + b.length)) := by
  obtain ⟨l, hl⟩ := hl
  unfold PeekReader.peek at h
  cases hp : p.peeked with
  | some e =>
    rw [hp] at h
    cases h
    exact ⟨hp, ⟨l, hl⟩, .inl ⟨rfl, rfl, rfl, rfl⟩⟩
  | none =>
    rw [hp] at h
    simp only at h
    by_cases hx : p.reader.isExhausted = true
    · simp only [hx, Bool.not_true, Bool.false_eq_true, ↓reduceIte] at h
      cases h
      exact ⟨hp, ⟨l, hl⟩, .inl ⟨rfl, rfl, rfl, rfl⟩⟩
    · simp only [hx, Bool.not_false, ↓reduceIte] at h
      unfold PeekReader.takeNext at h
      simp only [hp, Option.isSome_none, Bool.false_eq_true, ↓reduceIte] at h
      by_cases hq : p.reader.queue.isEmpty = true
      · have hw : waiting p = [] := by simp [waiting, hp, intoSortedVec_empty hq]
        simp only [hq, ↓reduceIte, Reader.scanTokens] at h
        have hnil : l = [] := by
          have := hl.len
          have h0 : p.reader.queue.len = 0 := by simpa [Queue.isEmpty, Queue.len] using hq
          rw [h0] at this
          exact List.length_eq_zero_iff.mp this.symm
        subst hnil
        generalize drive p.reader.src = d at h
        obtain ⟨o, b, s'⟩ := d
        cases o with
        | ok u =>
          simp only [Prod.mk.injEq, Out.ok.injEq] at h
          obtain ⟨h1, rfl⟩ := h
          have hrep := Queue.rep_foldl hl b
          rw [List.nil_append] at hrep
          have hst : (b.foldl Queue.push p.reader.queue).intoSortedVec = deliver b :=
            deliver_unique (Queue.drain_stable _ _ _ hrep (by rw [hrep.len]; omega))
          obtain ⟨l', -, hl'⟩ := Queue.rep_pop hrep
          refine ⟨h1, ⟨l', hl'⟩, .inr ⟨hw, b, rfl, ?_, ?_, (pop_increment _).trans (pushes_increment b _)⟩⟩
          · rw [← hst, intoSortedVec_pop]
            rfl
          · have hlen : p.reader.queue.len = 0 := hl.len
            simp only
            rw [foldl_push_length, hlen]
            cases b <;> simp
        | err e => simp at h
        | panic => simp at h
        | diverge => simp at h
      · have hq' : p.reader.queue.isEmpty = false := by simpa using hq
        simp only [hq', Bool.false_eq_true, ↓reduceIte, Prod.mk.injEq, Out.ok.injEq] at h
        obtain ⟨h1, rfl⟩ := h
        obtain ⟨l', -, hl'⟩ := Queue.rep_pop hl
        refine ⟨h1, ⟨l', hl'⟩, .inl ⟨rfl, ?_, rfl, pop_increment _⟩⟩
        have hv := intoSortedVec_pop p.reader.queue
        simp only [waiting, hp, Option.toList_none, List.nil_append]
        exact hv.symm

/-- A block collection was begun only if one is among the tokens, and without one no indentation is open. -/
structure Young (D : List TokenEntry) (s : SS) : Prop where
  valid : validUtf8 s.buf = true
  started : s.sc.context.started = true → ∃ e ∈ D ++ s.out, isBlockStart e.marker = true
  indents : s.sc.context.started = false → s.sc.context.indents = [] ∧ s.sc.context.indent = 0
  seen : (∃ e ∈ D ++ s.out, isBlockStart e.marker = true) → s.sc.context.started = true

theorem Young.put' {D : List TokenEntry} {s s' : SS} (h : Young D s) (hv : validUtf8 s'.buf = true) (hc : s'.sc.context.started = s.sc.context.started ∧
    (s.sc.context.started = false → s'.sc.context.indents = s.sc.context.indents ∧ s'.sc.context.indent = s.sc.context.indent))
    (ho : ∃ l, s'.out = s.out ++ l ∧ ∀ e ∈ l, isBlockStart e.marker = false) : Young D s' := by
  obtain ⟨l, ho, hl⟩ := ho
  refine ⟨hv, fun h1 => ?_, fun h1 => ?_, ?_⟩
  · obtain ⟨e, h2, h3⟩ := h.started (by rw [← hc.1]; exact h1)
    refine ⟨e, ?_, h3⟩
    rw [ho]
    simp only [List.mem_append] at h2 ⊢
    exact h2.elim .inl fun h => .inr (.inl h)
  · have h2 : s.sc.context.started = false := by rw [← hc.1]; exact h1
    rw [(hc.2 h2).1, (hc.2 h2).2]
    exact h.indents h2
  · rintro ⟨e, h1, h2⟩
    rw [hc.1]
    refine h.seen ⟨e, ?_, h2⟩
    rw [ho] at h1
    simp only [List.mem_append] at h1 ⊢
    rcases h1 with h1 | h1 | h1
    · exact .inl h1
    · exact .inr h1
    · rw [hl e h1] at h2; cases h2

theorem Young.some {D : List TokenEntry} {s : SS} {e : IndentEntry} {es : List IndentEntry} (h : Young D s) (he : s.sc.context.indents = e :: es) :
    s.sc.context.started = true := by
  cases hs : s.sc.context.started with
  | true => rfl
  | false => rw [(h.indents hs).1] at he; cases he

theorem Young.begin' {D : List TokenEntry} {s : SS} (hv : validUtf8 s.buf = true) (hc : s.sc.context.started = true)
    (ho : ∃ o e, s.out = o ++ [e] ∧ isBlockStart e.marker = true) : Young D s := by
  obtain ⟨o, e, ho, he⟩ := ho
  refine ⟨hv, fun _ => ⟨e, by rw [ho]; simp, he⟩, fun h => ?_, fun _ => hc⟩
  rw [hc] at h
  cases h

theorem young_one {e : TokenEntry} (h : isBlockStart e.marker = false) : ∀ x ∈ [e], isBlockStart x.marker = false := by
  intro x hx
  rw [List.mem_singleton.1 hx]
  exact h

theorem young_node {t : MaybeToken} (h : IsNode t) {r : Nat} : isBlockStart (TokenEntry.marker ⟨t, r⟩) = false := by
  show isBlockStart t.marker = false
  rcases h with h | h | h | h <;> rw [h] <;> rfl
theorem young_plain {t : Token} (h : IsPlain t) {r : Nat} : isBlockStart (TokenEntry.marker ⟨.Token t, r⟩) = false := by
  rcases h with rfl | rfl | rfl | rfl <;> rfl
theorem young_boundary {t : Token} (h : IsBoundary t) {r : Nat} : isBlockStart (TokenEntry.marker ⟨.Token t, r⟩) = false := by
  rcases h with rfl | rfl | h
  · rfl
  · rfl
  · rcases h with ⟨_, _, rfl⟩ | ⟨_, _, rfl⟩ <;> rfl

theorem closed_young (D : List TokenEntry) : Closed (Young D) where
  valid h := h.valid
  flags b h := h.put' h.valid ⟨rfl, fun _ => ⟨rfl, rfl⟩⟩ ⟨[], by simp, nofun⟩
  first h _ := h.put' h.valid ⟨rfl, fun _ => ⟨rfl, rfl⟩⟩ ⟨_, rfl, young_one rfl⟩
  noKey h := h.put' h.valid ⟨rfl, fun _ => ⟨rfl, rfl⟩⟩ ⟨[], by simp [SS.setKey], nofun⟩
  stale h _ := h.put' h.valid ⟨rfl, fun _ => ⟨rfl, rfl⟩⟩ ⟨[], by simp [SS.setKey], nofun⟩
  save _ h := h.put' h.valid ⟨rfl, fun _ => ⟨rfl, rfl⟩⟩ ⟨[], by simp [SS.setKey], nofun⟩
  move h h1 := h.put' h1.valid ⟨rfl, fun _ => ⟨rfl, rfl⟩⟩ ⟨[], by simp [SS.move], nofun⟩
  node h h1 _ h2 _ := h.put' h1.valid ⟨rfl, fun _ => ⟨rfl, rfl⟩⟩ ⟨_, rfl, young_one (young_node h2)⟩
  plain h _ h2 := h.put' h.valid ⟨rfl, fun _ => ⟨rfl, rfl⟩⟩ ⟨_, rfl, young_one (young_plain h2)⟩
  boundary h _ h2 _ _ := h.put' h.valid ⟨rfl, fun _ => ⟨rfl, rfl⟩⟩ ⟨_, rfl, young_one (young_boundary h2)⟩
  pop i h h1 := h.put' h.valid ⟨rfl, fun h2 => by rw [h.some h1] at h2; cases h2⟩ ⟨_, rfl, young_one rfl⟩
  roll e i map h _ := Young.begin' h.valid rfl ⟨_, _, rfl, by cases map <;> rfl⟩
  touch e' h h1 := h.put' h.valid ⟨rfl, fun h2 => by rw [h.some h1] at h2; cases h2⟩ ⟨[], by simp [SS.setIndents], nofun⟩
  rollKey e i h _ _ _ _ _ := Young.begin' h.valid rfl ⟨_, _, rfl, rfl⟩
  useKey h _ _ _ _ := h.put' h.valid ⟨rfl, fun _ => ⟨rfl, rfl⟩⟩ ⟨_, rfl, young_one rfl⟩
  flowStart map h := h.put' h.valid ⟨rfl, fun _ => ⟨rfl, rfl⟩⟩ ⟨_, rfl, young_one (by cases map <;> rfl)⟩
  flowEnd map h _ _ := h.put' h.valid ⟨rfl, fun _ => ⟨rfl, rfl⟩⟩ ⟨_, rfl, young_one (by cases map <;> rfl)⟩

/-- Both. -/
def Tidy (D : List TokenEntry) (s : SS) : Prop := Nested D s ∧ Young D s

theorem closed_tidy (D : List TokenEntry) : Closed (Tidy D) := (closed_nested D).and (closed_young D)

theorem static_tidy (D : List TokenEntry) : Static (Tidy D) := fun n buf h hv => ⟨static_nested D n buf h.1 hv, hv, h.2.started, h.2.indents, h.2.seen⟩

theorem tidy_next (D : List TokenEntry) (sc : Scanner) (buf : Str) (out : List TokenEntry) (h : Tidy D ⟨sc, buf, out⟩) :
    Tidy (D ++ deliver out) ⟨sc, buf, []⟩ := by
  refine ⟨nested_next _ _ _ _ h.1, h.2.valid, fun h1 => ?_, h.2.indents, ?_⟩
  · obtain ⟨e, h2, h3⟩ := h.2.started h1
    refine ⟨e, ?_, h3⟩
    simp only [List.mem_append, List.append_nil, mem_deliver] at h2 ⊢
    exact h2
  · rintro ⟨e, h2, h3⟩
    refine h.2.seen ⟨e, ?_, h3⟩
    simp only [List.mem_append, List.append_nil, mem_deliver] at h2 ⊢
    exact h2

theorem tidy_last : AtEnd Tidy fun _ _ => True := fun _ _ _ _ _ _ _ => trivial

/-- What the source is after the end of a document. -/
def Past (base : Str) (sc : Scanner) : Prop :=
  sc.key = none ∧ ((sc.context.flow = 0 → sc.context.indents = []) ∧ sc.simpleKeyAllowed = false ∧ sc.stats.column = 3) ∧ sc.state = .Stream ∧ ∃ P, base = P ++ bytes! "..." ++ base.drop sc.offset ∧ sc.offset = P.length + 3

/-- What a reader of a text has, when it handed out `out`. -/
structure Having (base : Str) (p : PeekReader Scanner) (out : List TokenEntry) : Prop where
  rep : ∃ l, p.reader.queue.Rep l
  mid : Midway base Tidy (fun _ _ => True) p.reader.src (out ++ waiting p)
  tail : ∀ a e b, waiting p = a ++ e :: b → e.wrap = .Token .DocumentEnd → b = []
  last : ∀ a e, out ++ waiting p = a ++ [e] → e.wrap = .Token .DocumentEnd → Past base p.reader.src ∧ p.reader.exhausted = false ∧ e.readAt = p.reader.src.stats.read
  count : out ++ waiting p ≠ [] → 1 ≤ p.reader.queue.increment

variable {opts : SFlags} {base : Str}

theorem Having.start (hv : validUtf8 base = true) (h0 : Tidy [] ⟨{}, base, []⟩) : Having base (PeekReader.new {}) [] :=
  ⟨⟨[], Queue.rep_new⟩, midway_start h0, fun a e b h => (by cases a <;> cases h), fun a e h => (by cases a <;> cases h), fun h => absurd rfl h⟩

theorem Having.peek (hv : validUtf8 base = true) {p q : PeekReader Scanner} {out : List TokenEntry} {r : Option TokenEntry} (h : Having base p out)
    (hp : p.peek (borrowDrive opts base) = (.ok r, q)) : Having base q out := by
  obtain ⟨-, hrep, ⟨h1, h2, h3, h4⟩ | ⟨hw, b, h1, h2, h3, h4⟩⟩ := peek_waits h.rep hp
  · refine ⟨hrep, ?_, ?_, ?_, by rw [h2, h4]; exact h.count⟩
    · rw [h1, h2]; exact h.mid
    · rw [h2]; exact h.tail
    · rw [h1, h2, h3]; exact h.last
  · have hm := h.mid
    rw [hw, List.append_nil] at hm
    have hk := (borrow_keeps closed_tidy static_tidy tidy_next tidy_last (.inl trivial) hv hm h1).2.2 (fun h => by cases h)
    rw [← h2] at hk
    have hcount : out ++ waiting q ≠ [] → 1 ≤ q.reader.queue.increment := by
      intro hne
      rw [h4]
      have hc := h.count
      rw [hw, List.append_nil] at hc
      cases out with
      | cons x xs => have := hc (by simp); omega
      | nil =>
        rw [h2] at hne
        cases b with
        | nil => exact absurd rfl hne
        | cons x xs => simp only [List.length_cons]; omega
    by_cases hd : p.reader.src.state = .Done
    · rw [borrow_done hd] at h1
      simp only [Prod.mk.injEq, true_and] at h1
      obtain ⟨rfl, -⟩ := h1
      have h2' : waiting q = waiting p := by rw [h2, hw]; rfl
      refine ⟨hrep, hk, by rw [h2']; exact h.tail, ?_, hcount⟩
      intro a e he hE
      rw [h2'] at he
      have h4 := (h.last a e he hE).1.2.2.1
      rw [hd] at h4
      cases h4
    · obtain ⟨hb, ⟨-, hT⟩ | ⟨hd', -⟩⟩ := hm
      · have he := scanTokens_ends (opts := { opts with extendable := false }) (P := True) closed_before (Static.noOffset static_before closed_before) (.inl trivial) hv hb hT.1.before hd
        unfold borrowDrive at h1
        generalize hx : scanTokens { opts with extendable := false } base p.reader.src = x at h1 he
        obtain ⟨o, sc1, out1⟩ := x
        cases o with
        | ok u =>
          simp only [Prod.mk.injEq, true_and] at h1
          obtain ⟨rfl, h1⟩ := h1
          have hne : out1 ≠ [] := by
            obtain ⟨-, ⟨-, -, h5, -⟩ | h5⟩ := he
            · exact h5
            · generalize hx : (⟨sc1, base.drop sc1.offset, out1⟩ : SS) = x at h5
              cases h5
              simp only [SS.put, SS.mk.injEq] at hx
              rw [hx.2.2]
              simp
          rcases loop_ended hv _ _ _ _ _ hb hT.1.before hd (fun e he => by cases he) hx with g | ⟨⟨o, e, rfl, g2, g3, g4, g6⟩, g5⟩
          · have g' : ∀ e ∈ waiting q, e.wrap ≠ .Token .DocumentEnd := by
              intro e he hE
              rw [h2, mem_deliver] at he
              refine g e he ?_
              rw [hE]
              rfl
            refine ⟨hrep, hk, ?_, ?_, hcount⟩
            · intro a e c hE h6
              exact absurd h6 (g' e (by rw [hE]; simp))
            · intro a e hE h6
              refine absurd h6 (g' e ?_)
              have hne' : waiting q ≠ [] := by
                rw [h2]
                intro h0
                obtain ⟨x, xs, rfl⟩ := List.exists_cons_of_ne_nil hne
                have : x ∈ deliver (x :: xs) := mem_deliver.2 (.head _)
                rw [h0] at this
                cases this
              have h7 : (out ++ (waiting q).dropLast) ++ [(waiting q).getLast hne'] = a ++ [e] := by
                rw [List.append_assoc, List.dropLast_concat_getLast]
                exact hE
              have h8 := (List.append_inj' h7 rfl).2
              simp only [List.cons.injEq, and_true] at h8
              rw [← h8]
              exact List.getLast_mem hne'
          · rw [deliver_last g4] at h2
            have g' : ∀ x ∈ deliver o, x.wrap ≠ .Token .DocumentEnd := by
              intro x hx hE
              refine g3 x (mem_deliver.1 hx) ?_
              rw [hE]
              rfl
            refine ⟨hrep, hk, ?_, ?_, hcount⟩
            · intro a x c hE h6
              rw [h2] at hE
              cases c with
              | nil => rfl
              | cons y ys =>
                exfalso
                have hx : x ∈ deliver o := by
                  have h7 : deliver o ++ [e] = (a ++ x :: (y :: ys).dropLast) ++ [(y :: ys).getLast (by simp)] := by
                    rw [List.append_assoc, List.cons_append, List.dropLast_concat_getLast]
                    exact hE
                  rw [(List.append_inj' h7 rfl).1]
                  simp
                exact g' x hx h6
            · intro a x hE h6
              rw [← h1]
              refine ⟨g5, by rw [h3]; simp, ?_⟩
              rw [h2, ← List.append_assoc] at hE
              have h8 := (List.append_inj' hE rfl).2
              simp only [List.cons.injEq, and_true] at h8
              rw [← h8]
              exact g6
        | err e => cases h1
        | panic => cases h1
        | diverge => cases h1
      · exact absurd hd' hd

theorem Having.pop (hv : validUtf8 base = true) {p q : PeekReader Scanner} {out : List TokenEntry} {e : TokenEntry} (h : Having base p out)
    (hp : p.pop (borrowDrive opts base) = (.ok (some e), q)) : Having base q (out ++ [e]) := by
  obtain ⟨q', h1, rfl⟩ := PeekReader.peek_of_pop hp
  have hq := h.peek hv h1
  have hpk : q'.peeked = some e := (peek_waits h.rep h1).1
  have hw : waiting q' = e :: waiting { q' with peeked := none } := by simp [waiting, hpk]
  have ho : out ++ [e] ++ waiting { q' with peeked := none } = out ++ waiting q' := by rw [hw]; simp
  refine ⟨hq.rep, ?_, ?_, ?_, by rw [ho]; exact hq.count⟩
  · rw [ho]; exact hq.mid
  · intro a x b hE h6
    exact hq.tail (e :: a) x b (by rw [hw, hE]; rfl) h6
  · rw [ho]; exact hq.last

theorem Having.pops (hv : validUtf8 base = true) {p q : PeekReader Scanner} {ts : List TokenEntry} (t : Pops (borrowDrive opts base) p ts q) :
    ∀ {out : List TokenEntry}, Having base p out → Having base q (out ++ ts) := by
  induction t with
  | nil p => intro out h; simpa using h
  | peek h t ih => intro out h1; exact ih (h1.peek hv h)
  | @pop p q p' e ts h t ih =>
    intro out h1
    have := ih (h1.pop hv h)
    rwa [List.append_assoc] at this

end Yary
