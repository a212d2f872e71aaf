import Verif.Proof.Reading.Words

/-! # Nodes without collections, and what is emitted for them -/

namespace Yary.Reading

open Spec

variable {opts : SFlags} {base : Str}

/-! ## Emissions -/

/-- The entries `P`, in the order they are pushed, lie between the positions `a` and `b`, and they are
handed out as `T`. -/
structure Emit (a b : Nat) (P : List TokenEntry) (T : List MaybeToken) : Prop where
  le : a ≤ b
  within : ∀ e ∈ P, a ≤ e.readAt ∧ e.readAt ≤ b
  toks : (deliver P).map TokenEntry.wrap = T

theorem Emit.nil {a b : Nat} (h : a ≤ b) : Emit a b [] [] := ⟨h, (by simp), rfl⟩

theorem Emit.one {a b n : Nat} (t : MaybeToken) (h : a ≤ n) (h' : n ≤ b) : Emit a b [⟨t, n⟩] [t] :=
  ⟨by omega, by simp; omega, by simp [deliver, ins]⟩

theorem Emit.mono {a b c d : Nat} {P : List TokenEntry} {T : List MaybeToken} (h : Emit a b P T) (h1 : c ≤ a) (h2 : b ≤ d) : Emit c d P T :=
  ⟨by have := h.le; omega, fun e he => by have := h.within e he; omega, h.toks⟩

theorem deliver_append {P P' : List TokenEntry} {b : Nat} (h : ∀ e ∈ P, e.readAt ≤ b) (h' : ∀ e ∈ P', b ≤ e.readAt) :
    deliver (P ++ P') = deliver P ++ deliver P' := by
  refine (deliver_unique (stable_append (deliver_stable P) (deliver_stable P') ?_)).symm
  have srt : ∀ l, Sorted (deliver l) := fun l => (deliver_stable l).sorted.imp fun {a b} hab => by
    rw [compare_entry, Ne, Nat.compare_eq_lt] at hab
    omega
  refine List.pairwise_append.2 ⟨srt P, srt P', fun x hx y hy => ?_⟩
  have h1 := h x (mem_deliver.1 hx)
  have h2 := h' y (mem_deliver.1 hy)
  omega

theorem Emit.append {a b c d : Nat} {P P' : List TokenEntry} {T T' : List MaybeToken} (h : Emit a b P T) (h' : Emit c d P' T') (hb : b ≤ c) :
    Emit a d (P ++ P') (T ++ T') := by
  have l1 := h.le
  have l2 := h'.le
  refine ⟨by omega, fun e he => ?_, ?_⟩
  · rcases List.mem_append.1 he with he | he
    · have := h.within e he; omega
    · have := h'.within e he; omega
  · rw [deliver_append (b := b) (fun e he => (h.within e he).2) (fun e he => by have := (h'.within e he).1; omega),
      List.map_append, h.toks, h'.toks]

/-- What is inserted before all the others. -/
theorem Emit.insert {k a b : Nat} {P : List TokenEntry} {T : List MaybeToken} (t : MaybeToken) (h : Emit a b P T) (hk : k < a) :
    Emit k b (P ++ [⟨t, k⟩]) (t :: T) := by
  have l1 := h.le
  refine ⟨by omega, fun e he => ?_, ?_⟩
  · rcases List.mem_append.1 he with he | he
    · have := h.within e he; omega
    · simp only [List.mem_singleton] at he; subst he; simp; omega
  · rw [deliver_snoc]
    unfold ins
    rw [List.filter_eq_nil_iff.2, List.filter_eq_self.2]
    · simp [h.toks]
    · intro x hx
      have := h.within x (mem_deliver.1 hx)
      simp; omega
    · intro x hx
      have := h.within x (mem_deliver.1 hx)
      simp; omega

theorem Emit.insert2 {k a b : Nat} {P : List TokenEntry} {T : List MaybeToken} (t t' : MaybeToken) (h : Emit a b P T) (hk : k < a) :
    Emit k b (P ++ [⟨t, k⟩, ⟨t', k⟩]) (t :: t' :: T) := by
  have l1 := h.le
  have hi := h.insert t hk
  refine ⟨by omega, fun e he => ?_, ?_⟩
  · have he : e ∈ P ++ [⟨t, k⟩] ∨ e = ⟨t', k⟩ := by simpa [or_assoc] using he
    rcases he with he | rfl
    · exact hi.within e he
    · simp; omega
  · have hd : deliver (P ++ [⟨t, k⟩]) = ⟨t, k⟩ :: deliver P := by
      rw [deliver_snoc]
      unfold ins
      rw [List.filter_eq_nil_iff.2, List.filter_eq_self.2]
      · rfl
      · intro x hx
        have := h.within x (mem_deliver.1 hx)
        simp; omega
      · intro x hx
        have := h.within x (mem_deliver.1 hx)
        simp; omega
    rw [show P ++ [⟨t, k⟩, ⟨t', k⟩] = (P ++ [⟨t, k⟩]) ++ [⟨t', k⟩] by simp, deliver_snoc, hd]
    unfold ins
    have e1 : (deliver P).filter (fun x => decide (x.readAt ≤ k)) = [] := by
      refine List.filter_eq_nil_iff.2 fun x hx => ?_
      have := h.within x (mem_deliver.1 hx)
      simp; omega
    have e2 : (deliver P).filter (fun x => decide (k < x.readAt)) = deliver P := by
      refine List.filter_eq_self.2 fun x hx => ?_
      have := h.within x (mem_deliver.1 hx)
      simp; omega
    simp [e1, e2, h.toks]

/-! ## Right after a token -/

/-- The key is not due, and was not saved in a later line. -/
def Soft (m : MStats) (key : Option KeySave) : Prop := ∀ k, key = some k → k.possible ≠ .Required ∧ k.stats.lines ≤ m.lines

/-- There is no key. -/
def Idle (key : Option KeySave) : Prop := ∀ k, key = some k → k.possible = .No

theorem Soft.none (m : MStats) : Soft m none := fun _ h => by cases h

theorem Idle.none : Idle none := fun _ h => by cases h

theorem Soft.loose {m : MStats} {key : Option KeySave} (h : Soft m key) : Loose key := fun k hk => (h k hk).1

theorem aged_some {m : MStats} {key : Option KeySave} {k : KeySave} (h : aged m key = some k) :
    ∃ k0, key = some k0 ∧ k.stats = k0.stats ∧ (k.possible = k0.possible ∨ k.possible = .No) ∧
      (k.possible ≠ .No → ¬ k0.stats.lines < m.lines) := by
  cases key with
  | none => cases h
  | some k0 =>
    refine ⟨k0, rfl, ?_⟩
    simp only [aged] at h
    split at h
    · simp only [Option.some.injEq] at h
      subst h
      simp
    · rename_i hc
      simp only [Option.some.injEq] at h
      subst h
      refine ⟨rfl, .inl rfl, fun hn hlt => hc ?_⟩
      have : k0.possible.allowed = true := by
        cases hp : k0.possible with
        | No => exact absurd hp hn
        | Yes => rfl
        | Required => rfl
      simp [this, hlt]

theorem Soft.aged {m m' : MStats} {key : Option KeySave} (h : Soft m key) (hm : m.lines ≤ m'.lines) : Soft m' (aged m' key) := by
  intro k hk
  obtain ⟨k0, h1, h2, h3, -⟩ := aged_some hk
  obtain ⟨h4, h5⟩ := h k0 h1
  refine ⟨?_, by rw [h2]; omega⟩
  rcases h3 with h3 | h3
  · rw [h3]; exact h4
  · rw [h3]; decide

theorem Idle.aged {m : MStats} {key : Option KeySave} (h : Idle key) : Idle (aged m key) := by
  intro k hk
  obtain ⟨k0, h1, -, h3, -⟩ := aged_some hk
  rcases h3 with h3 | h3
  · rw [h3]; exact h k0 h1
  · exact h3

theorem Soft.expires {m m' : MStats} {key : Option KeySave} (h : Soft m key) (hm : m.lines < m'.lines) : Idle (Reading.aged m' key) := by
  intro k hk
  obtain ⟨k0, h1, -, -, h4⟩ := aged_some hk
  obtain ⟨-, h5⟩ := h k0 h1
  by_cases hn : k.possible = .No
  · exact hn
  · exact absurd (by omega) (h4 hn)

/-- From `X` the steps lead right behind a token, to `u`, and from there in front of the next one. -/
structure At (opts : SFlags) (base : Str) (X : SS) (u : Str) (al idle : Bool) (cxt : Context) (out : List TokenEntry) : Prop where
  on : On base u
  next : ∀ n t, Skips true u n t → ∃ key, Soft (place base t) key ∧ (idle = true ∨ n ≠ 0 → Idle key) ∧
    Leads opts X (st base t (al || decide (n ≠ 0)) key cxt out)

theorem gap_passes (hA : Ascii base) {r t : Str} {n : Nat} (h : On base r) (hs : Skips true r n t) :
    Passes base r t ∧ lineOf base t = lineOf base r + n := by
  obtain ⟨h1, h2, -⟩ := gap_run (opts := { extendable := false, lazy := false }) rfl hA h hs false none {} []
  exact ⟨h1, h2⟩

/-- The token at `s`. -/
theorem at_token (hx : opts.extendable = false) (hA : Ascii base) {s r : Str} {al al1 idle : Bool} {key key1 : Option KeySave}
    {cxt cxt1 : Context} {out out1 : List TokenEntry} (hc : Calm base cxt s)
    (hf : Scan.fetchNext opts (st base s al key cxt out) = (.ok (), st base r al1 key1 cxt1 out1)) (hr : On base r)
    (hk : Soft (place base r) key1) (hi : idle = true → Idle key1) : At opts base (st base s al key cxt out) r al1 idle cxt1 out1 := by
  refine ⟨hr, fun n t hg => ⟨aged (place base t) key1, ?_, ?_, leads_token hx hA hc hf hr hg (hk.loose.keeps _)⟩⟩
  · exact hk.aged (gap_passes hA hr hg).1.line_le
  · rintro (h | h)
    · exact (hi h).aged
    · refine hk.expires ?_
      have := (gap_passes hA hr hg).2
      unfold lineOf at this
      omega

/-- One thing after another. -/
theorem At.then {X : SS} {u t r : Str} {n : Nat} {al al1 idle idle1 : Bool} {cxt cxt1 : Context} {out out1 : List TokenEntry}
    (h : At opts base X u al idle cxt out) (hs : Skips true u n t)
    (hr : ∀ key, Soft (place base t) key → (idle = true ∨ n ≠ 0 → Idle key) →
      At opts base (st base t (al || decide (n ≠ 0)) key cxt out) r al1 idle1 cxt1 out1) : At opts base X r al1 idle1 cxt1 out1 := by
  obtain ⟨key, h1, h2, h3⟩ := h.next n t hs
  obtain ⟨h4, h5⟩ := hr key h1 h2
  refine ⟨h4, fun n' t' hs' => ?_⟩
  obtain ⟨key', g1, g2, g3⟩ := h5 n' t' hs'
  exact ⟨key', g1, g2, h3.trans g3⟩

/-! ## Chains of tokens -/

/-- Tokens of a node, one after the other. -/
inductive Chain (base : Str) (p : Spot) : Str → List MaybeToken → Str → Prop where
  | one {s r : Str} {tok : MaybeToken} (h : WordTok base p s tok r) : Chain base p s [tok] r
  | cons {s r t u : Str} {tok : MaybeToken} {toks : List MaybeToken} (h : WordTok base p s tok r) (hn : NextAt base p r t)
      (hc : Chain base p t toks u) : Chain base p s (tok :: toks) u

theorem Chain.append {p : Spot} {s r t u : Str} {a b : List MaybeToken} (h : Chain base p s a r) (hn : NextAt base p r t) (h' : Chain base p t b u) :
    Chain base p s (a ++ b) u := by
  induction h with
  | one h => exact .cons h hn h'
  | cons h hn' _ ih => exact .cons h hn' (ih hn)

theorem due_of_ok {cxt : Context} {s : Str} (h : (spotOf cxt).Ok base s) : due base cxt s = false := by
  unfold due
  cases hb : cxt.isBlock with
  | false => rfl
  | true =>
    cases hl : cxt.level with
    | none => rfl
    | some n =>
      have := h.1 hb n hl
      have : ¬ n = columnOf base s := by omega
      simpa using this

/-- The spot of the tokens fits the context. -/
structure FitsSpot (p : Spot) (cxt : Context) : Prop where
  block : p.block = cxt.isBlock
  level : p.level = cxt.level
  line : ∀ l, zeroLine cxt = some l → p.line = some l
  sound : Sound cxt

theorem FitsSpot.self {cxt : Context} (h : Sound cxt) : FitsSpot (spotOf cxt) cxt := ⟨rfl, rfl, fun _ h => h, h⟩

theorem FitsSpot.ok {p : Spot} {cxt : Context} (h : FitsSpot p cxt) (t : Str) (ht : p.Ok base t) : (spotOf cxt).Ok base t :=
  ⟨fun hb n hn => ht.1 (h.block.trans hb) n (h.level.trans hn), fun l hl => ht.2 l (h.line l hl)⟩

theorem savedKey_soft {s r : Str} {al : Bool} {cxt : Context} {key : Option KeySave} (hp : Passes base s r) (hk : Soft (place base s) key)
    (hd : al = true → due base cxt s = false) : Soft (place base r) (savedKey base s al cxt key) := by
  intro k h
  unfold savedKey at h
  have hl := hp.line_le
  unfold lineOf at hl
  cases al with
  | true =>
    simp only [↓reduceIte, Option.some.injEq] at h
    subst h
    refine ⟨?_, hl⟩
    simp [KeySave.new, hd rfl]
  | false =>
    obtain ⟨h1, h2⟩ := hk k h
    exact ⟨h1, by omega⟩

/-- Tokens of a node that is no key. -/
theorem Chain.soft (hx : opts.extendable = false) (hl : opts.lazy = false) (hA : Ascii base) {p : Spot} {s r : Str} {toks : List MaybeToken}
    (h : Chain base p s toks r) {cxt : Context} (hp : FitsSpot p cxt) {idle : Bool} : ∀ {al : Bool} {key : Option KeySave} {out : List TokenEntry},
    On base s → Calm base cxt s → (al = true → due base cxt s = false) → Soft (place base s) key →
    (idle = true → al = false ∧ Idle key ∧ p.line = some (lineOf base s)) →
    Passes base s r ∧ ∃ P, At opts base (st base s al key cxt out) r false idle cxt (out ++ P) ∧ Emit ((place base s).read + 1) (place base r).read P toks := by
  induction h with
  | @one s r tok h =>
    intro al key out hs hc hd hk hi
    obtain ⟨h1, h2, h3⟩ := word_fetch (out := out) hx hl hA hs h hp.block hp.level (al := al) fun _ => hk.loose
    refine ⟨h1, _, at_token hx hA hc h3 (hs.pass h1) (savedKey_soft h1 hk hd) ?_, .one _ ?_ (Nat.le_refl _)⟩
    · intro h
      obtain ⟨rfl, e2, -⟩ := hi h
      exact e2
    · have := h1.read
      omega
  | @cons s r t u tok toks h hn _ ih =>
    intro al key out hs hc hd hk hi
    obtain ⟨h1, h2, h3⟩ := word_fetch (out := out) hx hl hA hs h hp.block hp.level (al := al) fun _ => hk.loose
    obtain ⟨⟨n, hg⟩, ho⟩ := hn
    have hr := hs.pass h1
    obtain ⟨hp1, hp2⟩ := gap_passes hA hr hg
    have hst := at_token (idle := idle) hx hA hc h3 hr (savedKey_soft h1 hk hd) (by
      intro h
      obtain ⟨rfl, e2, -⟩ := hi h
      exact e2)
    have hok := hp.ok t ho
    have hn0 : idle = true → n = 0 ∧ lineOf base t = lineOf base s := by
      intro h
      obtain ⟨-, -, e3⟩ := hi h
      have := ho.2 _ e3
      have := h1.line_le
      omega
    have key2 : ∀ key, Soft (place base t) key → (idle = true ∨ n ≠ 0 → Idle key) →
        Passes base t u ∧ ∃ P, At opts base (st base t (false || decide (n ≠ 0)) key cxt (out ++ [⟨tok, (place base r).read⟩])) u false idle cxt (out ++ [⟨tok, (place base r).read⟩] ++ P) ∧
          Emit ((place base t).read + 1) (place base u).read P toks := by
      intro key hk hid
      refine ih (hr.pass hp1) (calm_of hp.sound hok) (fun _ => due_of_ok hok) hk ?_
      intro h
      obtain ⟨-, -, e3⟩ := hi h
      obtain ⟨e4, e5⟩ := hn0 h
      exact ⟨by simp [e4], hid (.inl h), by rw [e3, e5]⟩
    obtain ⟨key, g1, g2, g3⟩ := hst.next n t hg
    obtain ⟨hpu, P, k1, k2⟩ := key2 key g1 g2
    refine ⟨(h1.trans hp1).trans hpu, ⟨tok, (place base r).read⟩ :: P, ?_, ?_⟩
    · refine ⟨k1.on, fun n' t' hs' => ?_⟩
      obtain ⟨key', q1, q2, q3⟩ := k1.next n' t' hs'
      refine ⟨key', q1, q2, g3.trans ?_⟩
      simpa using q3
    · have e1 : Emit ((place base s).read + 1) (place base r).read [⟨tok, (place base r).read⟩] [tok] := by
        refine .one _ ?_ (Nat.le_refl _)
        have := h1.read
        omega
      have := hp1.read_le
      exact e1.append k2 (by omega)

theorem KeySave.aged_fits {s k : Str} {d : Bool} (h : KeyFits base s k) :
    aged (place base k) (some (.new (place base s) d)) = some (.new (place base s) d) ∧ Keeps (place base k) (some (.new (place base s) d)) := by
  obtain ⟨h1, h2⟩ := h
  unfold lineOf at h1
  constructor
  · unfold aged
    dsimp only
    rw [if_neg]
    simp only [Bool.and_eq_true, Bool.or_eq_true, decide_eq_true_eq]
    simp only [KeySave.new]
    omega
  · intro k' hk _
    simp only [Option.some.injEq] at hk
    subst hk
    simp only [KeySave.new]
    omega

/-- Between a key and its `:`. -/
theorem fits_before {s t k : Str} (h : KeyFits base s k) (h1 : Passes base s t) (h2 : Passes base t k) : KeyFits base s t := by
  have := h1.line_le
  have := h2.line_le
  have := h2.read_le
  obtain ⟨h3, h4⟩ := h
  exact ⟨by omega, by omega⟩

/-- Tokens while a key is kept. -/
theorem Chain.held (hx : opts.extendable = false) (hl : opts.lazy = false) (hA : Ascii base) {p : Spot} {s0 s r k : Str} {toks : List MaybeToken}
    (h : Chain base p s toks r) {cxt : Context} (hp : FitsSpot p cxt) {d : Bool} {n : Nat} (hg : Skips true r n k) (hf : KeyFits base s0 k) :
    ∀ {out : List TokenEntry}, On base s → Passes base s0 s → Calm base cxt s →
    Passes base s k ∧ ∃ P, Leads opts (st base s false (some (.new (place base s0) d)) cxt out) (st base k false (some (.new (place base s0) d)) cxt (out ++ P)) ∧
      Emit ((place base s).read + 1) (place base k).read P toks := by
  induction h with
  | @one s r tok h =>
    intro out hs h0 hc
    obtain ⟨h1, h2, h3⟩ := word_fetch (out := out) (key := some (.new (place base s0) d)) (al := false) hx hl hA hs h hp.block hp.level (fun h => by cases h)
    obtain ⟨hp1, hp2⟩ := gap_passes hA (hs.pass h1) hg
    obtain ⟨a1, a2⟩ := KeySave.aged_fits (d := d) hf
    have hL := leads_token hx hA hc h3 (hs.pass h1) hg (by simpa [savedKey] using a2)
    simp only [savedKey, Bool.false_eq_true, ↓reduceIte] at hL
    rw [a1] at hL
    have hn : n = 0 := by
      have := hf.1
      have := h0.line_le
      have := h1.line_le
      omega
    rw [hn] at hL
    refine ⟨h1.trans hp1, _, hL, .one _ ?_ hp1.read_le⟩
    have := h1.read
    omega
  | @cons s r t u tok toks h hn hch ih =>
    intro out hs h0 hc
    obtain ⟨h1, h2, h3⟩ := word_fetch (out := out) (key := some (.new (place base s0) d)) (al := false) hx hl hA hs h hp.block hp.level (fun h => by cases h)
    obtain ⟨⟨n', hg'⟩, ho⟩ := hn
    have hr := hs.pass h1
    obtain ⟨hp1, hp2⟩ := gap_passes hA hr hg'
    have hok := hp.ok t ho
    obtain ⟨hpk, P, k1, k2⟩ := ih (out := out ++ [⟨tok, (place base r).read⟩]) hg (hr.pass hp1) ((h0.trans h1).trans hp1) (calm_of hp.sound hok)
    have hft : KeyFits base s0 t := fits_before hf ((h0.trans h1).trans hp1) hpk
    obtain ⟨a1, a2⟩ := KeySave.aged_fits (d := d) hft
    have hL := leads_token hx hA hc h3 hr hg' (by simpa [savedKey] using a2)
    simp only [savedKey, Bool.false_eq_true, ↓reduceIte] at hL
    rw [a1] at hL
    have hn : n' = 0 := by
      have := hft.1
      have := h0.line_le
      have := h1.line_le
      omega
    rw [hn] at hL
    refine ⟨(h1.trans hp1).trans hpk, ⟨tok, (place base r).read⟩ :: P, ?_, ?_⟩
    · refine Leads.trans hL ?_
      simpa using k1
    · have e1 : Emit ((place base s).read + 1) (place base r).read [⟨tok, (place base r).read⟩] [tok] := by
        refine .one _ ?_ (Nat.le_refl _)
        have := h1.read
        omega
      have := hp1.read_le
      exact e1.append k2 (by omega)

/-- Tokens of a key. -/
theorem Chain.key (hx : opts.extendable = false) (hl : opts.lazy = false) (hA : Ascii base) {p : Spot} {s r k : Str} {toks : List MaybeToken}
    (h : Chain base p s toks r) {cxt : Context} (hp : FitsSpot p cxt) {n : Nat} (hg : Skips true r n k) (hf : KeyFits base s k)
    {key : Option KeySave} {out : List TokenEntry} (hs : On base s) (hc : Calm base cxt s) (hk : Loose key) :
    Passes base s k ∧ ∃ P, Leads opts (st base s true key cxt out) (st base k false (some (.new (place base s) (due base cxt s))) cxt (out ++ P)) ∧
      Emit ((place base s).read + 1) (place base k).read P toks := by
  cases h with
  | @one _ _ tok h =>
    obtain ⟨h1, h2, h3⟩ := word_fetch (out := out) (key := key) (al := true) hx hl hA hs h hp.block hp.level (fun _ => hk)
    obtain ⟨hp1, hp2⟩ := gap_passes hA (hs.pass h1) hg
    obtain ⟨a1, a2⟩ := KeySave.aged_fits (d := due base cxt s) hf
    have hL := leads_token hx hA hc h3 (hs.pass h1) hg (by simpa [savedKey] using a2)
    simp only [savedKey, ↓reduceIte] at hL
    rw [a1] at hL
    have hn : n = 0 := by
      have := hf.1
      have := h1.line_le
      omega
    rw [hn] at hL
    refine ⟨h1.trans hp1, _, hL, .one _ ?_ hp1.read_le⟩
    have := h1.read
    omega
  | @cons _ r' t _ tok toks h hn hch =>
    obtain ⟨h1, h2, h3⟩ := word_fetch (out := out) (key := key) (al := true) hx hl hA hs h hp.block hp.level (fun _ => hk)
    obtain ⟨⟨n', hg'⟩, ho⟩ := hn
    have hr := hs.pass h1
    obtain ⟨hp1, hp2⟩ := gap_passes hA hr hg'
    have hok := hp.ok t ho
    obtain ⟨hpk, P, k1, k2⟩ := Chain.held (out := out ++ [⟨tok, (place base r').read⟩]) (d := due base cxt s) hx hl hA hch hp hg hf (hr.pass hp1) (h1.trans hp1) (calm_of hp.sound hok)
    have hft : KeyFits base s t := fits_before hf (h1.trans hp1) hpk
    obtain ⟨a1, a2⟩ := KeySave.aged_fits (d := due base cxt s) hft
    have hL := leads_token hx hA hc h3 hr hg' (by simpa [savedKey] using a2)
    simp only [savedKey, ↓reduceIte] at hL
    rw [a1] at hL
    have hn : n' = 0 := by
      have := hft.1
      have := h1.line_le
      omega
    rw [hn] at hL
    refine ⟨(h1.trans hp1).trans hpk, ⟨tok, (place base r').read⟩ :: P, ?_, ?_⟩
    · refine Leads.trans hL ?_
      simpa using k1
    · have e1 : Emit ((place base s).read + 1) (place base r').read [⟨tok, (place base r').read⟩] [tok] := by
        refine .one _ ?_ (Nat.le_refl _)
        have := h1.read
        omega
      have := hp1.read_le
      exact e1.append k2 (by omega)

/-! ## Leaves -/

theorem NodeProps.chain {p : Spot} {s r : Str} {a : Option Str} {tg : Option (Str × Str)} (h : NodeProps base p s a tg r) :
    ∃ ps, Chain base p s ps r ∧ TProps ps a tg ∧ ps ≠ [] := by
  cases h with
  | anchor h => exact ⟨_, .one (.anchor h), .anchor _, by simp⟩
  | tag h => exact ⟨_, .one (.tag h), .tag _ _, by simp⟩
  | anchorTag h hn h' => exact ⟨_, .cons (.anchor h) hn (.one (.tag h')), .anchorTag _ _ _, by simp⟩
  | tagAnchor h hn h' => exact ⟨_, .cons (.tag h) hn (.one (.anchor h')), .tagAnchor _ _ _, by simp⟩

theorem Leaf.chain {p : Spot} {tags : List (Str × Str)} {kind : NodeKind} {s r : Str} {es : List EventData} (h : Leaf base tags p kind s es r) :
    ∃ ts, Chain base p s ts r ∧ ∀ b, TNode tags b kind ts es := by
  cases h with
  | ref h => exact ⟨_, .one (.anchor h), fun b => .ref b _ _⟩
  | scalar hp hu h =>
    cases hp with
    | none => exact ⟨_, .one (.word h), fun b => .scalar b _ .none hu (.eager _ _)⟩
    | some hp hn =>
      obtain ⟨ps, h1, h2, -⟩ := NodeProps.chain hp
      exact ⟨_, h1.append hn (.one (.word h)), fun b => .scalar b _ h2 hu (.eager _ _)⟩
  | empty hp hu =>
    obtain ⟨ps, h1, h2, h3⟩ := NodeProps.chain hp
    exact ⟨_, h1, fun b => .empty b _ h2 hu h3⟩

end Yary.Reading
