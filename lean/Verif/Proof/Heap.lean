import Verif.Spec.Heap
import Verif.Proof.Deliver

/-! # Buffers stay where they are -/

namespace Yary.Heap

open Spec

variable {room : Mem → Nat → Bool} {size : Nat → Nat → Nat} {opts : SFlags}

theorem _root_.Yary.Spec.Stored.load {m : Mem} {p : Ptr} {s : Str} (h : Stored m p s) : m.load p = (s, m) := by
  cases p with
  | none => cases h; rfl
  | some a =>
    unfold Mem.load
    simp only [show m.block a = some s from h]

/-- `m'` is `m` and a new buffer `p` with the contents `s`. -/
structure NewBuf (m m' : Mem) (p : Ptr) (s : Str) : Prop where
  fault : m'.fault = false
  fresh : ∀ a, m'.next ≤ a → m'.block a = none
  grows : m.next ≤ m'.next
  holds : Stored m' p s
  others : ∀ a, some a ≠ p → m'.block a = m.block a
  isNew : ∀ a, p = some a → m.next ≤ a

theorem NewBuf.push {m m' : Mem} (hm : ∀ a, m.next ≤ a → m.block a = none) {p : Ptr} {s : Str} (h : NewBuf m m' p s) (b : Byte) :
    NewBuf m (m'.push room p b).2 (m'.push room p b).1 (s ++ [b]) := by
  obtain ⟨h1, h2, h3, h4, h5, h6⟩ := h
  cases p with
  | none =>
    cases h4
    unfold Mem.push Mem.alloc
    refine ⟨h1, ?_, by show m.next ≤ m'.next + 1; omega, if_pos rfl, ?_, ?_⟩
    · intro a ha
      have ha : m'.next + 1 ≤ a := ha
      show (if a = m'.next then _ else m'.block a) = none
      rw [if_neg (by omega)]
      exact h2 a (by omega)
    · intro a ha
      show (if a = m'.next then _ else m'.block a) = _
      rw [if_neg (by rintro rfl; exact ha rfl)]
      exact h5 a (fun h => by cases h)
    · intro a ha
      injection ha with ha
      omega
  | some a =>
    have hb : m'.block a = some s := h4
    have hn := h6 a rfl
    unfold Mem.push
    simp only [hb]
    split
    · refine ⟨h1, ?_, h3, if_pos rfl, ?_, h6⟩
      · intro x hx
        show (if x = a then _ else m'.block x) = none
        have := h2 x hx
        rw [if_neg (by rintro rfl; rw [this] at hb; cases hb)]
        exact this
      · intro x hx
        show (if x = a then _ else m'.block x) = _
        rw [if_neg (by rintro rfl; exact hx rfl)]
        exact h5 x hx
    · unfold Mem.free Mem.alloc
      simp only [hb]
      refine ⟨h1, ?_, by show m.next ≤ m'.next + 1; omega, if_pos rfl, ?_, ?_⟩
      · intro x hx
        have hx : m'.next + 1 ≤ x := hx
        show (if x = m'.next then _ else if x = a then none else m'.block x) = none
        rw [if_neg (by omega), h2 x (by omega)]
        exact ite_self _
      · intro x hx
        show (if x = m'.next then _ else if x = a then none else m'.block x) = _
        rw [if_neg (by rintro rfl; exact hx rfl)]
        by_cases hxa : x = a
        · subst hxa
          rw [if_pos rfl]
          exact (hm _ hn).symm
        · rw [if_neg hxa]
          exact h5 x (fun h => hxa (by injection h))
      · intro x hx
        injection hx with hx
        omega

theorem NewBuf.extend {m : Mem} (hm : ∀ a, m.next ≤ a → m.block a = none) : ∀ (t : Str) {m' : Mem} {p : Ptr} {s : Str}, NewBuf m m' p s →
    NewBuf m (m'.extend room p t).2 (m'.extend room p t).1 (s ++ t)
  | [], m', p, s, h => by
    rw [List.append_nil]
    exact h
  | b :: t, m', p, s, h => by
    have := NewBuf.extend hm t (h.push (room := room) hm b)
    rw [List.append_assoc] at this
    exact this

theorem NewBuf.free {m m' : Mem} (hm : ∀ a, m.next ≤ a → m.block a = none) {p : Ptr} {s : Str} (h : NewBuf m m' p s) :
    (m'.free p).fault = false ∧ (∀ a, (m'.free p).block a = m.block a) ∧ m.next ≤ (m'.free p).next := by
  obtain ⟨h1, h2, h3, h4, h5, h6⟩ := h
  cases p with
  | none => exact ⟨h1, fun a => h5 a (fun h => by cases h), h3⟩
  | some a =>
    unfold Mem.free
    simp only [show m'.block a = some s from h4]
    refine ⟨h1, fun x => ?_, h3⟩
    show (if x = a then none else m'.block x) = _
    by_cases hxa : x = a
    · subst hxa
      rw [if_pos rfl, hm _ (h6 _ rfl)]
    · rw [if_neg hxa]
      exact h5 x (fun h => hxa (by injection h))

/-- The invariant: the blocks that are allocated are those of the head and the tail, each of which is there once, and the views
are in them. -/
structure Sound (o : Holder) : Prop where
  fault : o.mem.fault = false
  fresh : ∀ a, o.mem.next ≤ a → o.mem.block a = none
  owned : ∀ a, o.mem.block a ≠ none ↔ some a ∈ o.head :: o.tail
  nodup : ((o.head :: o.tail).filterMap id).Nodup
  views : ∀ v ∈ o.views, v.at_ ∈ o.head :: o.tail ∧ Stored o.mem v.at_ v.text

/-- Without memory. -/
def erase (o : Holder) : Owned := ⟨(o.mem.load o.head).1, o.tail.length, o.source, o.exhausted⟩

theorem Sound.start (src : Source) : Sound { source := src } :=
  ⟨rfl, fun _ _ => rfl, fun a => by simp, List.nodup_nil, fun v hv => by cases hv⟩

theorem Sound.head {o : Holder} (h : Sound o) : ∃ s, Stored o.mem o.head s := by
  cases hh : o.head with
  | none => exact ⟨[], rfl⟩
  | some a =>
    have := (h.owned a).2 (by rw [hh]; exact List.mem_cons_self)
    cases hb : o.mem.block a with
    | none => exact absurd hb this
    | some s => exact ⟨s, hb⟩

/-- Memory with the same blocks. -/
theorem Sound.mem {o : Holder} (h : Sound o) {m : Mem} (hf : m.fault = false) (hb : ∀ a, m.block a = o.mem.block a) (hn : o.mem.next ≤ m.next)
    (src : Source) (x : Bool) : Sound { o with mem := m, source := src, exhausted := x } := by
  refine ⟨hf, fun a ha => (hb a).trans (h.fresh a (Nat.le_trans hn ha)), fun a => ?_, h.nodup, fun v hv => ?_⟩
  · show m.block a ≠ none ↔ _
    rw [hb]
    exact h.owned a
  · obtain ⟨h1, h2⟩ := h.views v hv
    refine ⟨h1, ?_⟩
    show Stored m _ _
    cases hp : v.at_ with
    | none => rw [hp] at h2; exact h2
    | some a => rw [hp] at h2; exact (hb a).trans h2

theorem load_congr {m m' : Mem} (hb : ∀ a, m'.block a = m.block a) (p : Ptr) : (m'.load p).1 = (m.load p).1 := by
  cases p with
  | none => rfl
  | some a =>
    unfold Mem.load
    simp only [hb]
    cases m.block a <;> rfl

theorem give_sound {o : Holder} (h : Sound o) (ts : List TokenEntry) : Sound (o.give ts) ∧ erase (o.give ts) = erase o := by
  obtain ⟨s, hs⟩ := h.head
  unfold Holder.give erase
  rw [hs.load]
  refine ⟨⟨h.fault, h.fresh, h.owned, h.nodup, fun v hv => ?_⟩, ?_⟩
  · rcases List.mem_append.1 hv with hv | hv
    · exact h.views v hv
    · cases List.mem_singleton.1 hv
      exact ⟨List.mem_cons_self, hs⟩
  · simp only [hs.load]

theorem given_take {cap : Nat} {src src' : Source} {bytes : Str} (h : src.take cap = (.ok bytes, src')) : src.given cap = bytes := by
  cases src with
  | nil => cases h; rfl
  | cons x src =>
    obtain ⟨b, e⟩ := x
    unfold Source.take at h
    unfold Source.given
    simp only at h ⊢
    split at h
    · cases h; rfl
    · cases e with
      | none => cases h; exact List.take_of_length_le (by omega)
      | some e => cases h

/-- `refresh` keeps the invariant, and does what it does without memory. -/
theorem refresh_sound {o : Holder} (h : Sound o) (mark : Nat) :
    Sound (o.refresh room size mark).2 ∧ (erase o).refresh size mark = ((o.refresh room size mark).1, erase (o.refresh room size mark).2) ∧
      (o.refresh room size mark).2.views = o.views := by
  obtain ⟨s, hs⟩ := h.head
  have hnew : NewBuf o.mem o.mem none [] := ⟨h.fault, h.fresh, Nat.le_refl _, rfl, fun _ _ => rfl, fun _ h => by cases h⟩
  have e0 : erase o = ⟨s, o.tail.length, o.source, o.exhausted⟩ := by
    unfold erase
    rw [hs.load]
  unfold Holder.refresh Owned.refresh
  rw [e0]
  simp only [hs.load]
  split
  · exact ⟨h, by rw [← e0], rfl⟩
  generalize hcap : size o.tail.length mark = cap
  have h2 := (hnew.extend (room := room) h.fresh (s.drop mark)).extend (room := room) h.fresh (o.source.given cap)
  simp only [List.nil_append] at h2
  generalize Mem.extend room (Mem.extend room o.mem none (s.drop mark)).2 (Mem.extend room o.mem none (s.drop mark)).1 (o.source.given cap) = r at h2 ⊢
  obtain ⟨new, m⟩ := r
  simp only at h2 ⊢
  have hsound : ∀ src x, Sound { o with mem := m.free new, source := src, exhausted := x } := fun src x =>
    h.mem (h2.free h.fresh).1 (h2.free h.fresh).2.1 (h2.free h.fresh).2.2 src x
  have herase : ∀ src x, erase { o with mem := m.free new, source := src, exhausted := x } = ⟨s, o.tail.length, src, x⟩ := by
    intro src x
    unfold erase
    simp only
    rw [load_congr (h2.free h.fresh).2.1, hs.load]
  have hgiven := @given_take cap o.source
  cases ht : o.source.take cap with
  | mk x src =>
  cases x with
  | ok bytes =>
    have hg := hgiven ht
    rw [hg] at h2
    simp only [h2.holds.load]
    split
    · next hv =>
      refine ⟨⟨h2.fault, h2.fresh, ?_, ?_, ?_⟩, ?_, rfl⟩
      · intro a
        show m.block a ≠ none ↔ some a ∈ new :: (o.tail ++ [o.head])
        have : some a ∈ new :: (o.tail ++ [o.head]) ↔ some a = new ∨ some a ∈ o.head :: o.tail := by
          simp only [List.mem_cons, List.mem_append, List.not_mem_nil, or_false]
          constructor
          · rintro (h | h | h)
            · exact .inl h
            · exact .inr (.inr h)
            · exact .inr (.inl h)
          · rintro (h | h | h)
            · exact .inl h
            · exact .inr (.inr h)
            · exact .inr (.inl h)
        rw [this]
        by_cases ha : some a = new
        · subst ha
          rw [show m.block a = some _ from h2.holds]
          simp
        · rw [h2.others a ha, h.owned a]
          simp [ha]
      · show ((new :: (o.tail ++ [o.head])).filterMap id).Nodup
        have hp : ((new :: (o.tail ++ [o.head])).filterMap id).Perm ((new :: (o.head :: o.tail)).filterMap id) :=
          List.Perm.filterMap _ (.cons _ (List.perm_append_comm (l₁ := o.tail) (l₂ := [o.head])))
        rw [hp.nodup_iff]
        cases hn : new with
        | none => exact h.nodup
        | some a =>
          show (a :: (o.head :: o.tail).filterMap id).Nodup
          rw [List.nodup_cons]
          refine ⟨fun hm => ?_, h.nodup⟩
          obtain ⟨p, hp, hpa⟩ := List.mem_filterMap.1 hm
          cases hpa
          exact (h.owned a).2 hp (h.fresh a (h2.isNew a hn))
      · intro v hv
        obtain ⟨h3, h4⟩ := h.views v hv
        refine ⟨?_, ?_⟩
        · show v.at_ ∈ new :: (o.tail ++ [o.head])
          rw [List.mem_cons] at h3
          simp only [List.mem_cons, List.mem_append, List.not_mem_nil, or_false]
          rcases h3 with h | h
          · exact .inr (.inr h)
          · exact .inr (.inl h)
        · show Stored m v.at_ v.text
          cases hp : v.at_ with
          | none => rw [hp] at h4; exact h4
          | some a =>
            rw [hp] at h4
            refine (h2.others a ?_).trans h4
            intro ha
            have := h.fresh a (h2.isNew a ha.symm)
            rw [show o.mem.block a = some _ from h4] at this
            cases this
      · unfold erase
        simp [h2.holds.load]
    · exact ⟨hsound _ _, by rw [herase], rfl⟩
  | err e => exact ⟨hsound _ _, by rw [herase], rfl⟩
  | panic => exact ⟨hsound _ _, by rw [herase], rfl⟩
  | diverge => exact ⟨hsound _ _, by rw [herase], rfl⟩

/-- The tokens scanned so far. -/
def Known (o : Holder) (ts : List TokenEntry) : Prop := ∀ e ∈ ts, ∃ v ∈ o.views, e ∈ v.tokens

/-- The loop keeps the invariant, does what it does without memory, and all the tokens have been scanned in a view. -/
theorem loop_sound : ∀ fuel (o : Holder) (sc : Scanner) (out old : List TokenEntry), Sound o → Known o (out ++ old) →
    Sound (heldLoop room size opts fuel o sc out).2.2.1 ∧
      ownedLoop size opts fuel (erase o) sc out = ((heldLoop room size opts fuel o sc out).1, (heldLoop room size opts fuel o sc out).2.1,
        erase (heldLoop room size opts fuel o sc out).2.2.1, (heldLoop room size opts fuel o sc out).2.2.2) ∧
      Known (heldLoop room size opts fuel o sc out).2.2.1 ((heldLoop room size opts fuel o sc out).2.1 ++ old)
  | 0, o, sc, out, old, h, hk => ⟨h, rfl, hk⟩
  | fuel + 1, o, sc, out, old, h, hk => by
    have hgive : ∀ more, Known (o.give more) ((out ++ more) ++ old) := by
      intro more e he
      rw [List.mem_append, List.mem_append] at he
      rcases he with (he | he) | he
      · obtain ⟨v, hv, h1⟩ := hk e (List.mem_append_left _ he)
        exact ⟨v, List.mem_append_left _ hv, h1⟩
      · exact ⟨_, List.mem_append_right _ (List.mem_singleton.2 rfl), he⟩
      · obtain ⟨v, hv, h1⟩ := hk e (List.mem_append_right _ he)
        exact ⟨v, List.mem_append_left _ hv, h1⟩
    rw [heldLoop, ownedLoop]
    rw [show (erase o).head = (o.mem.load o.head).1 from rfl, show (erase o).exhausted = o.exhausted from rfl]
    generalize scanTokens { opts with extendable := !o.exhausted } (o.mem.load o.head).1 sc = r
    obtain ⟨x, sc1, more⟩ := r
    have hend : ∀ r : Out ReaderError Unit, Sound (r, out ++ more, (o.give more, sc1)).2.2.1 ∧
        (r, out ++ more, (erase o, sc1)) = (r, out ++ more, erase (o.give more), sc1) ∧ Known (o.give more) ((out ++ more) ++ old) :=
      fun r => ⟨(give_sound h more).1, by rw [(give_sound h more).2], hgive more⟩
    cases x with
    | ok u => exact hend _
    | panic => exact hend _
    | diverge => exact hend _
    | err e =>
      cases e
      case Extend =>
        obtain ⟨h1, h2, h3⟩ := refresh_sound (room := room) (size := size) (give_sound h more).1 sc1.offset
        rw [(give_sound h more).2] at h2
        have hk2 : Known ((o.give more).refresh room size sc1.offset).2 ((out ++ more) ++ old) := by
          unfold Known
          rw [h3]
          exact hgive more
        simp only
        rw [h2]
        generalize (o.give more).refresh room size sc1.offset = r at h1 hk2 ⊢
        obtain ⟨x, o2⟩ := r
        cases x with
        | ok u => exact loop_sound fuel o2 _ _ old h1 hk2
        | err e => exact ⟨h1, rfl, hk2⟩
        | panic => exact ⟨h1, rfl, hk2⟩
        | diverge => exact ⟨h1, rfl, hk2⟩
      all_goals exact hend _

/-! ## Histories -/

section twin

variable {σ τ : Type} {d : Drive σ} {d' : Drive τ} {R : σ → τ → Prop}

/-- Readers that differ in their sources only. -/
structure Twin (R : σ → τ → Prop) (p : PeekReader σ) (q : PeekReader τ) : Prop where
  peeked : p.peeked = q.peeked
  queue : p.reader.queue = q.reader.queue
  exhausted : p.reader.exhausted = q.reader.exhausted
  src : R p.reader.src q.reader.src

theorem twin_takeNext (hd : ∀ s t, R s t → (d s).1 = (d' t).1 ∧ (d s).2.1 = (d' t).2.1 ∧ R (d s).2.2 (d' t).2.2) {p : PeekReader σ}
    {q : PeekReader τ} (h : Twin R p q) : (p.takeNext d).1 = (q.takeNext d').1 ∧ Twin R (p.takeNext d).2 (q.takeNext d').2 := by
  obtain ⟨pk, ⟨s, qu, ex⟩⟩ := p
  obtain ⟨pk', ⟨t, qu', ex'⟩⟩ := q
  obtain ⟨h1, h2, h3, h4⟩ := h
  dsimp only at h1 h2 h3 h4
  subst h1 h2 h3
  unfold PeekReader.takeNext
  simp only
  by_cases hp : pk.isSome = true
  · rw [if_pos hp, if_pos hp]
    exact ⟨rfl, rfl, rfl, rfl, h4⟩
  rw [if_neg hp, if_neg hp]
  by_cases hq : qu.isEmpty = true
  · rw [if_pos hq, if_pos hq]
    obtain ⟨g1, g2, g3⟩ := hd s t h4
    unfold Reader.scanTokens
    simp only
    generalize d s = x at g1 g2 g3
    generalize d' t = y at g1 g2 g3
    obtain ⟨o, b, s'⟩ := x
    obtain ⟨o', b', t'⟩ := y
    dsimp only at g1 g2 g3
    subst g1 g2
    cases o with
    | ok u => exact ⟨rfl, rfl, rfl, rfl, g3⟩
    | err e => exact ⟨rfl, rfl, rfl, rfl, g3⟩
    | panic => exact ⟨rfl, rfl, rfl, rfl, g3⟩
    | diverge => exact ⟨rfl, rfl, rfl, rfl, g3⟩
  · rw [if_neg hq, if_neg hq]
    exact ⟨rfl, rfl, rfl, rfl, h4⟩

theorem twin_op (hd : ∀ s t, R s t → (d s).1 = (d' t).1 ∧ (d s).2.1 = (d' t).2.1 ∧ R (d s).2.2 (d' t).2.2) {p : PeekReader σ}
    {q : PeekReader τ} (h : Twin R p q) (op : ROp) : (op.run d p).1 = (op.run d' q).1 ∧ Twin R (op.run d p).2 (op.run d' q).2 := by
  have ht := twin_takeNext hd h
  have hx : p.reader.isExhausted = q.reader.isExhausted := by
    unfold Reader.isExhausted
    rw [h.exhausted, h.queue]
  generalize h1 : p.takeNext d = x at ht
  generalize h2 : q.takeNext d' = y at ht
  obtain ⟨x, p1⟩ := x
  obtain ⟨y, q1⟩ := y
  obtain ⟨g1, g2⟩ := ht
  dsimp only at g1 g2
  subst g1
  cases op with
  | peek =>
    simp only [ROp.run, PeekReader.peek]
    rw [← h.peeked, ← hx, h1, h2]
    cases p.peeked with
    | some e => exact ⟨rfl, h⟩
    | none =>
      cases p.reader.isExhausted with
      | true => exact ⟨rfl, h⟩
      | false => cases x <;> exact ⟨by simp [g2.peeked], g2⟩
  | pop =>
    simp only [ROp.run, PeekReader.pop]
    rw [← h.peeked, ← hx, h1, h2]
    cases p.peeked with
    | some e => exact ⟨rfl, rfl, h.queue, h.exhausted, h.src⟩
    | none =>
      cases p.reader.isExhausted with
      | true => exact ⟨rfl, h⟩
      | false =>
        cases x with
        | ok u => exact ⟨by simp [g2.peeked], rfl, g2.queue, g2.exhausted, g2.src⟩
        | err e => exact ⟨rfl, g2⟩
        | panic => exact ⟨rfl, g2⟩
        | diverge => exact ⟨rfl, g2⟩

theorem twin_run (hd : ∀ s t, R s t → (d s).1 = (d' t).1 ∧ (d s).2.1 = (d' t).2.1 ∧ R (d s).2.2 (d' t).2.2) (ops : List ROp)
    {p : PeekReader σ} {q : PeekReader τ} (h : Twin R p q) :
    (runOps d ops p).1 = (runOps d' ops q).1 ∧ Twin R (runOps d ops p).2 (runOps d' ops q).2 := by
  induction ops generalizing p q with
  | nil => exact ⟨rfl, h⟩
  | cons op ops ih =>
    obtain ⟨h1, h2⟩ := twin_op hd h op
    obtain ⟨h3, h4⟩ := ih h2
    simp only [runOps]
    rw [h1, h3]
    exact ⟨rfl, h4⟩

end twin

/-- The two drives. -/
theorem drive_sound {s : Holder × Scanner} (h : Sound s.1) (old : List TokenEntry) (hk : Known s.1 old) :
    Sound (heldDrive room size opts s).2.2.1 ∧
      ownedDrive size opts (erase s.1, s.2) = ((heldDrive room size opts s).1, (heldDrive room size opts s).2.1,
        erase (heldDrive room size opts s).2.2.1, (heldDrive room size opts s).2.2.2) ∧
      Known (heldDrive room size opts s).2.2.1 ((heldDrive room size opts s).2.1 ++ old) :=
  loop_sound (s.1.source.reads + 3) s.1 s.2 [] old h hk

theorem loop_views : ∀ fuel (o : Holder) (sc : Scanner) (out : List TokenEntry), Sound o → ∀ v ∈ o.views,
    v ∈ (heldLoop room size opts fuel o sc out).2.2.1.views
  | 0, o, sc, out, h, v, hv => hv
  | fuel + 1, o, sc, out, h, v, hv => by
    rw [heldLoop]
    generalize scanTokens { opts with extendable := !o.exhausted } (o.mem.load o.head).1 sc = r
    obtain ⟨x, sc1, more⟩ := r
    have hend : v ∈ (o.give more).views := List.mem_append_left _ hv
    cases x with
    | ok u => exact hend
    | panic => exact hend
    | diverge => exact hend
    | err e =>
      cases e
      case Extend =>
        obtain ⟨h1, -, h3⟩ := refresh_sound (room := room) (size := size) (give_sound h more).1 sc1.offset
        rw [← h3] at hend
        simp only
        generalize (o.give more).refresh room size sc1.offset = r at h1 hend ⊢
        obtain ⟨x, o2⟩ := r
        cases x with
        | ok u => exact loop_views fuel o2 _ _ h1 v hend
        | err e => exact hend
        | panic => exact hend
        | diverge => exact hend
      all_goals exact hend

theorem run_append {σ : Type} {d : Drive σ} {a b : List ROp} {p : PeekReader σ} :
    (runOps d (a ++ b) p).2 = (runOps d b (runOps d a p).2).2 := by
  induction a generalizing p with
  | nil => rfl
  | cons op a ih => exact ih

/-- After a history of calls. -/
theorem after_sound (src : Source) (ops : List ROp) : Sound (heldAfter room size opts src ops) ∧
    Known (heldAfter room size opts src ops) (handed (heldHistory room size opts src ops)) := by
  have h := (reader_kept (drive := heldDrive room size opts) (J := fun s D => Sound s.1 ∧ Known s.1 D) (K := fun _ => True)
    (src := ({ source := src }, {})) (fun s D o b s' hJ hd _ => by
      obtain ⟨h1, -, h3⟩ := drive_sound (room := room) (size := size) (opts := opts) hJ.1 D hJ.2
      rw [hd] at h1 h3
      refine ⟨h1, fun e he => h3 e ?_⟩
      rw [List.mem_append] at he ⊢
      rcases he with he | he
      · exact .inr he
      · exact .inl ((deliver_stable b).perm.mem_iff.1 he)) ⟨.start src, fun e he => by cases he⟩ ops (fun _ _ => trivial)).2
  exact ⟨h.1, fun e he => h.2 e (List.mem_append_left _ (List.mem_append_left _ he))⟩

theorem after_views (src : Source) (ops more : List ROp) : ∀ v ∈ (heldAfter room size opts src ops).views,
    v ∈ (heldAfter room size opts src (ops ++ more)).views := by
  intro v hv
  unfold heldAfter
  rw [run_append]
  have h := (twin_run (d := heldDrive room size opts) (d' := heldDrive room size opts) (R := fun s t => s = t ∧ Sound s.1 ∧ v ∈ s.1.views)
    (fun s t ⟨h1, h2, h3⟩ => ⟨by rw [h1], by rw [h1], by rw [h1], (drive_sound h2 [] (fun e he => by cases he)).1, loop_views _ _ _ _ h2 v h3⟩)
    more (p := (runOps (heldDrive room size opts) ops (.new ({ source := src }, {}))).2) ⟨rfl, rfl, rfl, rfl, (after_sound src ops).1, hv⟩).2
  exact h.src.2.2

theorem after_same (src : Source) (ops : List ROp) :
    heldHistory room size opts src ops = (runOps (ownedDrive size opts) ops (.new ({ source := src }, {}))).1 := by
  refine (twin_run (d := heldDrive room size opts) (d' := ownedDrive size opts) (R := fun s t => Sound s.1 ∧ t = (erase s.1, s.2)) ?_ ops
    (p := .new ({ source := src }, {})) (q := .new ({ source := src }, {})) ⟨rfl, rfl, rfl, .start src, rfl⟩).1
  rintro s _ ⟨h1, rfl⟩
  obtain ⟨h2, h3, -⟩ := drive_sound (room := room) (size := size) (opts := opts) h1 [] (fun e he => by cases he)
  rw [h3]
  exact ⟨rfl, rfl, h2, rfl⟩

/-! ## Dropping -/

theorem frees : ∀ (l : List Ptr) (m : Mem), m.fault = false → (∀ a, m.block a ≠ none ↔ some a ∈ l) → (l.filterMap id).Nodup →
    (l.foldl Mem.free m).fault = false ∧ ∀ a, (l.foldl Mem.free m).block a = none
  | [], m, hf, ho, _ => ⟨hf, fun a => by
    cases hb : m.block a with
    | none => exact hb
    | some s => exact absurd ((ho a).1 (by rw [hb]; simp)) (by simp)⟩
  | none :: l, m, hf, ho, hn => frees l m hf (fun a => by rw [ho a]; simp) hn
  | some a :: l, m, hf, ho, hn => by
    rw [show (some a :: l).filterMap id = a :: l.filterMap id from rfl, List.nodup_cons] at hn
    have hb := (ho a).2 List.mem_cons_self
    cases hs : m.block a with
    | none => exact absurd hs hb
    | some s =>
      have he : m.free (some a) = { m with block := fun x => if x = a then none else m.block x } := by
        unfold Mem.free
        simp only [hs]
      rw [List.foldl_cons, he]
      refine frees l _ hf (fun x => ?_) hn.2
      show (if x = a then none else m.block x) ≠ none ↔ _
      by_cases hx : x = a
      · subst hx
        rw [if_pos rfl]
        refine ⟨fun h => absurd rfl h, fun h => absurd (List.mem_filterMap.2 ⟨some x, h, rfl⟩ : x ∈ l.filterMap id) hn.1⟩
      · rw [if_neg hx, ho x, List.mem_cons]
        exact ⟨fun h => h.resolve_left (fun h => hx (by injection h)), .inr⟩

theorem drop_sound {o : Holder} (h : Sound o) : o.drop.fault = false ∧ ∀ a, o.drop.block a = none :=
  frees (o.head :: o.tail) o.mem h.fault h.owned h.nodup

end Yary.Heap
