import Verif.Proof.Chunk.Owned
import Verif.Proof.Lazy.Queue

/-! # Histories of two readers side by side -/

namespace Yary.Chunk

open Scan Spec Deferred

variable {σ τ : Type} {R : σ → τ → Prop} {Q : TokenEntry → TokenEntry → Prop} {E : ReaderError → Prop} {d : Drive σ} {d' : Drive τ}

/-- How two drives compare. -/
def Side (Q : TokenEntry → TokenEntry → Prop) (R : σ → τ → Prop) (E : ReaderError → Prop) (x : Out ReaderError Unit × List TokenEntry × σ)
    (y : Out ReaderError Unit × List TokenEntry × τ) : Prop :=
  (∃ out out' s t, x = (.ok (), out, s) ∧ y = (.ok (), out', t) ∧ Pairs Q out out' ∧ R s t) ∨
  (x.1 ≠ .ok () ∧ x.1 = y.1) ∨ ∃ e, x.1 = .err e ∧ E e

/-- Two readers that are equally far. -/
structure Even (Q : TokenEntry → TokenEntry → Prop) (R : σ → τ → Prop) (p : PeekReader σ) (q : PeekReader τ) : Prop where
  peeked : EvOpt Q p.peeked q.peeked
  queue : EvQueue Q p.reader.queue q.reader.queue
  exhausted : p.reader.exhausted = q.reader.exhausted
  src : R p.reader.src q.reader.src

theorem takeNext_side (hQ : Placed Q) (hd : ∀ s t, R s t → Side Q R E (d s) (d' t)) {p : PeekReader σ} {q : PeekReader τ} (h : Even Q R p q) :
    (∃ p' q', p.takeNext d = (.ok (), p') ∧ q.takeNext d' = (.ok (), q') ∧ Even Q R p' q') ∨
    ((p.takeNext d).1 ≠ .ok () ∧ (p.takeNext d).1 = (q.takeNext d').1) ∨ ∃ e, (p.takeNext d).1 = .err e ∧ E e := by
  unfold PeekReader.takeNext
  rw [h.peeked.isSome]
  by_cases hp : p.peeked.isSome = true
  · rw [if_pos hp, if_pos hp]
    exact .inl ⟨p, q, rfl, rfl, h⟩
  · rw [if_neg hp, if_neg hp, h.queue.isEmpty]
    by_cases hq : p.reader.queue.isEmpty = true
    · simp only [if_pos hq]
      unfold Reader.scanTokens
      rcases hd _ _ h.src with ⟨out, out', s, t, h1, h2, hp3, h3⟩ | ⟨h1, h2⟩ | ⟨e, h1, h2⟩
      · rw [h1, h2]
        refine .inl ⟨_, _, rfl, rfl, ?_⟩
        have hqq := h.queue.pushAll hp3
        exact ⟨(hqq.pop hQ).1, (hqq.pop hQ).2, by simp only [hqq.len, h.queue.len], h3⟩
      · right; left
        generalize d p.reader.src = x at h1 h2
        generalize d' q.reader.src = y at h2
        obtain ⟨x, out, s⟩ := x
        obtain ⟨y, out', t⟩ := y
        simp only at h1 h2
        subst h2
        cases x with
        | ok u => exact absurd rfl h1
        | err e => exact ⟨(fun h => by cases h), rfl⟩
        | panic => exact ⟨(fun h => by cases h), rfl⟩
        | diverge => exact ⟨(fun h => by cases h), rfl⟩
      · right; right
        generalize d p.reader.src = x at h1
        obtain ⟨x, out, s⟩ := x
        simp only at h1
        subst h1
        exact ⟨e, rfl, h2⟩
    · simp only [if_neg hq]
      exact .inl ⟨_, _, rfl, rfl, (h.queue.pop hQ).1, (h.queue.pop hQ).2, h.exhausted, h.src⟩

theorem op_side (hQ : Placed Q) (hd : ∀ s t, R s t → Side Q R E (d s) (d' t)) {p : PeekReader σ} {q : PeekReader τ} (h : Even Q R p q) (op : ROp) :
    (∃ t t' p' q', op.run d p = (.ok t, p') ∧ op.run d' q = (.ok t', q') ∧ EvOpt Q t t' ∧ Even Q R p' q') ∨
    ((∀ t, (op.run d p).1 ≠ .ok t) ∧ (op.run d p).1 = (op.run d' q).1) ∨ ∃ e, (op.run d p).1 = .err e ∧ E e := by
  have ht := takeNext_side hQ hd h
  have hx : p.reader.isExhausted = q.reader.isExhausted := by
    unfold Reader.isExhausted
    rw [h.exhausted, h.queue.isEmpty]
  have hpk := h.peeked
  cases op with
  | peek =>
    simp only [ROp.run, PeekReader.peek]
    generalize hp : p.peeked = a at hpk
    generalize hq : q.peeked = b at hpk
    cases hpk with
    | some hr => exact .inl ⟨_, _, p, q, rfl, rfl, .some hr, h⟩
    | none =>
      simp only [hx]
      by_cases hq : (!q.reader.isExhausted) = true
      · simp only [if_pos hq]
        generalize p.takeNext d = x at ht
        generalize q.takeNext d' = y at ht
        obtain ⟨x, p'⟩ := x
        obtain ⟨y, q'⟩ := y
        rcases ht with ⟨p1, q1, h1, h2, h3⟩ | ⟨h1, h2⟩ | ⟨e, h1, h2⟩
        · cases h1
          cases h2
          exact .inl ⟨p'.peeked, q'.peeked, p', q', rfl, rfl, h3.peeked, h3⟩
        · simp only at h1 h2
          subst h2
          right; left
          cases x with
          | ok u => exact absurd rfl h1
          | err e => exact ⟨(fun t h => by cases h), rfl⟩
          | panic => exact ⟨(fun t h => by cases h), rfl⟩
          | diverge => exact ⟨(fun t h => by cases h), rfl⟩
        · simp only at h1
          subst h1
          exact .inr (.inr ⟨e, rfl, h2⟩)
      · simp only [if_neg hq]
        exact .inl ⟨none, none, p, q, rfl, rfl, .none, h⟩
  | pop =>
    simp only [ROp.run, PeekReader.pop]
    generalize hp : p.peeked = a at hpk
    generalize hq : q.peeked = b at hpk
    cases hpk with
    | some hr => exact .inl ⟨_, _, _, _, rfl, rfl, .some hr, .none, h.queue, h.exhausted, h.src⟩
    | none =>
      simp only [hx]
      by_cases hq : (!q.reader.isExhausted) = true
      · simp only [if_pos hq]
        generalize p.takeNext d = x at ht
        generalize q.takeNext d' = y at ht
        obtain ⟨x, p'⟩ := x
        obtain ⟨y, q'⟩ := y
        rcases ht with ⟨p1, q1, h1, h2, h3⟩ | ⟨h1, h2⟩ | ⟨e, h1, h2⟩
        · cases h1
          cases h2
          exact .inl ⟨p'.peeked, q'.peeked, { p' with peeked := none }, { q' with peeked := none }, rfl, rfl, h3.peeked, .none,
            h3.queue, h3.exhausted, h3.src⟩
        · simp only at h1 h2
          subst h2
          right; left
          cases x with
          | ok u => exact absurd rfl h1
          | err e => exact ⟨(fun t h => by cases h), rfl⟩
          | panic => exact ⟨(fun t h => by cases h), rfl⟩
          | diverge => exact ⟨(fun t h => by cases h), rfl⟩
        · simp only at h1
          subst h1
          exact .inr (.inr ⟨e, rfl, h2⟩)
      · simp only [if_neg hq]
        exact .inl ⟨none, none, p, q, rfl, rfl, .none, h⟩

theorem runOps_agreeBy (hQ : Placed Q) (hd : ∀ s t, R s t → Side Q R E (d s) (d' t)) (ops : List ROp) {p : PeekReader σ} {q : PeekReader τ}
    (h : Even Q R p q) : AgreeBy Q E (runOps d ops p).1 (runOps d' ops q).1 := by
  induction ops generalizing p q with
  | nil => exact .nil
  | cons op ops ih =>
    simp only [runOps]
    rcases op_side hQ hd h op with ⟨t, t', p', q', h1, h2, h3, h4⟩ | ⟨h1, h2⟩ | ⟨e, h1, h2⟩
    · rw [h1, h2]
      cases h3 with
      | none => exact .none (ih h4)
      | some hr => exact .token hr (ih h4)
    · rw [← h2]
      exact .same h1
    · rw [h1]
      exact .fails h2

theorem agreeBy_mono {Q' : TokenEntry → TokenEntry → Prop} (hQ : ∀ a b, Q a b → Q' a b)
    {h h' : List (ROp × Out ReaderError (Option TokenEntry))} (ha : AgreeBy Q E h h') : AgreeBy Q' E h h' := by
  induction ha with
  | nil => exact .nil
  | token ht _ ih => exact .token (hQ _ _ ht) ih
  | none _ ih => exact .none ih
  | same hx => exact .same hx
  | fails he => exact .fails he

theorem agreeBy_agree {h h' : List (ROp × Out ReaderError (Option TokenEntry))} (ha : AgreeBy (fun a b => b = a) E h h') :
    Agree E h h' := by
  induction ha with
  | nil => exact .nil
  | token ht _ ih => cases ht; exact .ok ih
  | none _ ih => exact .ok ih
  | same hx => exact .same hx
  | fails he => exact .fails he

/-- The tokens of two readers whose drives report the same. -/
theorem pairs_map {g : MaybeToken → MaybeToken} (l : List TokenEntry) : Pairs (fun a b => b = mapE g a) l (l.map (mapE g)) := by
  induction l with
  | nil => exact .nil
  | cons a l ih => exact .cons rfl ih

theorem placed_map {g : MaybeToken → MaybeToken} : Placed (fun a b => b = mapE g a) := by
  rintro a _ rfl
  rfl

/-! ## The chunked reader and the text -/

variable {size : Nat → Nat → Nat} {err : Option IoError} {text : Str}

/-- The chunked reader is where the text has come to. -/
def Alike (err : Option IoError) (text : Str) (s : Owned × Scanner) (sc : Scanner) : Prop :=
  ∃ k rem, sc = { s.2 with offset := k } ∧ Lined s.1.head rem text s.2 k ∧ Feeds s.1.source rem err ∧
    (s.1.exhausted = true → rem = [])

theorem drive_side (hsize : ∀ a b, 0 < size a b) {g : MaybeToken → MaybeToken} {opts : SFlags} (hA : Apt g opts text) (ht : validUtf8 text = true)
    {s : Owned × Scanner} {sc : Scanner} (h : Alike err text s sc) :
    Side (fun a b => b = mapE g a) (Alike err text) (ReadFails size text err) (ownedDrive size opts s) (borrowDrive opts text sc) := by
  obtain ⟨ow, c⟩ := s
  obtain ⟨k, rem, rfl, hL, hF, hx⟩ := h
  unfold ownedDrive borrowDrive
  simp only at hL hF hx ⊢
  by_cases hd : c.state = .Done
  · have h1 : scanTokens { opts with extendable := false } text { c with offset := k } = (.ok (), { c with offset := k }, []) :=
      scanLoop_stop (.inl hd)
    have h2 : scanTokens { opts with extendable := !ow.exhausted } ow.head c = (.ok (), c, []) := scanLoop_stop (.inl hd)
    rw [h1, show ow.source.reads + 3 = (ow.source.reads + 2) + 1 from rfl, ownedLoop, h2]
    exact .inl ⟨[], [], (ow, c), _, rfl, rfl, .nil, k, rem, rfl, hL, hF, hx⟩
  · have hv : validUtf8 (text.drop k) = true := validUtf8_drop ht hL.whole
    have hend : Ends True Plainly text { c with offset := k } []
        (scanTokens { opts with extendable := false } text { c with offset := k }) := by
      refine scanLoop_ends closed_plainly (fun _ h => h) (.inl trivial) _ _ _ hL.whole hv hv hd ?_
      unfold Scanner.left
      have := List.length_drop (i := k) (l := text)
      simp only
      split <;> (try split) <;> omega
    have hgo : scanTokens { opts with extendable := false } text { c with offset := k } =
        scanGo { opts with extendable := false } text (text.length + 2) (scanNextToken { opts with extendable := false }
          (SS.grow rem k (Pre.raw hA.fix []) ⟨c, ow.head.drop c.offset, []⟩)) := by
      have h1 := scanLoop_go (opts := { opts with extendable := false }) (base := text) (fuel := text.length + 2)
        (sc := { c with offset := k }) (out := []) hd (.inl rfl) hL.whole
      rw [scanTokens, h1]
      simp only [hL.rest]
      rfl
    have hsim := ownedLoop_sim hsize hA ht (ow.source.reads + 3) ow c [] (text.length + 2) k k rem hL hd hF hx
      (.inr (by omega)) (by
        rw [← hgo]
        intro h
        generalize scanTokens { opts with extendable := false } text { c with offset := k } = r at h hend
        obtain ⟨x, sc1, out⟩ := r
        simp only at h
        subst h
        exact hend)
    rw [← hgo] at hsim
    generalize ownedLoop size opts (ow.source.reads + 3) ow c [] = x at hsim
    generalize scanTokens { opts with extendable := false } text { c with offset := k } = y at hsim
    obtain ⟨x, out, ow', sc'⟩ := x
    cases x with
    | ok u =>
      obtain ⟨k', rem', rfl, h2, h3, h4⟩ := hsim
      exact .inl ⟨out, _, (ow', sc'), _, rfl, rfl, pairs_map out, k', rem', rfl, h2, h3, h4⟩
    | err e =>
      rcases hsim with h | ⟨e', rfl, h1, -⟩
      · exact .inr (.inr ⟨e, rfl, h⟩)
      · obtain ⟨y, sc1, out1⟩ := y
        simp only at h1
        subst h1
        exact .inr (.inl ⟨(fun h => by cases h), rfl⟩)
    | panic =>
      obtain ⟨y, sc1, out1⟩ := y
      have h1 := hsim.1
      simp only at h1
      subst h1
      exact .inr (.inl ⟨(fun h => by cases h), rfl⟩)
    | diverge => exact hsim.elim

/-- The chunked reader reports what scanning the text reports, up to changes. -/
theorem owned_agreesBy (hsize : ∀ a b, 0 < size a b) {g : MaybeToken → MaybeToken} {opts : SFlags} (hA : Apt g opts text)
    (ht : validUtf8 text = true) {src : Source} (hs : Supplies src text err) (ops : List ROp) :
    AgreeBy (fun a b => b = mapE g a) (ReadFails size text err) (runOps (ownedDrive size opts) ops (.new ({ source := src }, {}))).1
      (runOps (borrowDrive opts text) ops (.new {})).1 := by
  refine runOps_agreeBy (R := Alike err text) placed_map (fun s t h => drive_side hsize hA ht h) ops
    ⟨.none, ⟨.nil, rfl⟩, rfl, 0, text, rfl, ?_, .of_supplies hs, ?_⟩
  · exact ⟨rfl, rfl, rfl, rfl, trivial⟩
  · intro h; cases h

/-- The chunked reader reports what scanning the text reports. -/
theorem owned_agrees (hsize : ∀ a b, 0 < size a b) {opts : SFlags} (hl : opts.lazy = false) (ht : validUtf8 text = true)
    {src : Source} (hs : Supplies src text err) (ops : List ROp) :
    Agree (ReadFails size text err) (runOps (ownedDrive size opts) ops (.new ({ source := src }, {}))).1
      (runOps (borrowDrive opts text) ops (.new {})).1 :=
  agreeBy_agree (owned_agreesBy hsize (g := id) (.inl ⟨hl, rfl⟩) ht hs ops)

end Yary.Chunk
