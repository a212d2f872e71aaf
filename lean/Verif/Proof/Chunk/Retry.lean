import Verif.Proof.Chunk.Ends
import Verif.Proof.Chunk.Step
import Verif.Proof.Scan.Comes

/-! # A step that asked for more text is done again -/

namespace Yary.Chunk

open Scan

/-! ## Sequences at the indentation of their mapping -/

/-- A flagged entry is that of a sequence at the indentation `i` of the mapping around it. -/
def Zeroed (i : Nat) : List IndentEntry → Prop
  | [] => True
  | e :: es => (e.zeroIndented = true → e.indent = i ∧ ∃ d ds, es = d :: ds ∧ d.kind = .BlockMappingStart) ∧
    Zeroed e.indent es

/-- The same of the scanner's indents. -/
def ZeroedIn (x : Context) : Prop := Zeroed x.indent x.indents

/-- The method keeps the invariant, whatever comes of it. -/
def Keeps {α : Type} (m : Scan α) : Prop := ∀ s, ZeroedIn s.sc.context → ZeroedIn (m s).2.sc.context

section
variable {α β : Type}

theorem Keeps.bind {m : Scan α} {f : α → Scan β} (h : Keeps m) (hf : ∀ a, Keeps (f a)) : Keeps (m >>= f) := by
  intro s hs
  have h1 := h s hs
  simp only [Bind.bind, SO.bind]
  generalize m s = r at h1
  obtain ⟨x, s1⟩ := r
  cases x with
  | ok a => exact hf a s1 h1
  | err e => exact h1
  | panic => exact h1
  | diverge => exact h1

theorem Keeps.getBind {f : SS → Scan β} (hf : ∀ s, ZeroedIn s.sc.context → Keeps (f s)) : Keeps (get >>= f) :=
  fun s hs => hf s hs s hs

theorem Keeps.get : Keeps Scan.get := fun _ h => h
theorem Keeps.pure {a : α} : Keeps (Pure.pure a : Scan α) := fun _ h => h
theorem Keeps.fail {e : ScanError} : Keeps (SO.fail e : Scan α) := fun _ h => h
theorem Keeps.lift {x : Out ScanError α} : Keeps (SO.lift x : Scan α) := fun _ h => h
theorem Keeps.upd {f : Scanner → Scanner} (h : ∀ sc, ZeroedIn sc.context → ZeroedIn (f sc).context) : Keeps (upd f) :=
  fun s hs => h s.sc hs
theorem Keeps.enqueue {a : MaybeToken} {n : Nat} : Keeps (enqueue a n) := fun _ h => h
theorem Keeps.push {a : Token} : Keeps (push a) := fun _ h => h
theorem Keeps.takeKey : Keeps takeKey := fun _ h => h
theorem Keeps.commit {b : Str} {m : MStats} : Keeps (commit b m) := by
  intro s h
  unfold Scan.commit
  split <;> exact h
theorem Keeps.advance {n : Nat} : Keeps (advance n) := by
  intro s h
  unfold Scan.advance Cur.adv
  by_cases hb : isBoundary s.buf n = true
  · simp only [if_pos hb]; exact h
  · simp only [if_neg hb]; exact h
theorem Keeps.sub {m : MStats} {f : Cur → Out ScanError α} : Keeps (sub m f) := .bind .get fun _ => .lift

theorem zeroed_pop {column : Option Nat} {l : List IndentEntry} {i : Nat} (h : Zeroed i l) :
    Zeroed (popLoop column l i).2.1 (popLoop column l i).1 := by
  induction l generalizing i with
  | nil => exact h
  | cons e es ih =>
    rw [popLoop]
    split
    · exact ih h.2
    · exact h

theorem Keeps.unrollIndent {c : Option Nat} : Keeps (unrollIndent c) := by
  intro s h
  show ZeroedIn (s.sc.context.indentDecrement c).1
  unfold Context.indentDecrement
  split
  · exact zeroed_pop h
  · exact h

theorem Keeps.popZeroIndent : Keeps popZeroIndent := by
  intro s h
  cases hi : s.sc.context.indents with
  | nil => rw [popZeroIndent_nil hi]; exact h
  | cons e es =>
    unfold ZeroedIn at h
    by_cases hz : ZeroDue e s
    · rw [popZeroIndent_pos hi hz]
      rw [hi] at h
      exact h.2
    · rw [popZeroIndent_neg hi hz]; exact h

/-- Take the method apart. -/
macro "keeps" : tactic => `(tactic| repeat' first
  | (with_reducible exact Keeps.pure)
  | (with_reducible exact Keeps.fail)
  | (with_reducible exact Keeps.lift)
  | (with_reducible exact Keeps.enqueue)
  | (with_reducible exact Keeps.push)
  | (with_reducible exact Keeps.takeKey)
  | (with_reducible exact Keeps.unrollIndent)
  | (with_reducible exact Keeps.popZeroIndent)
  | (with_reducible exact Keeps.advance)
  | (with_reducible exact Keeps.commit)
  | (with_reducible exact Keeps.sub)
  | (with_reducible exact Keeps.get)
  | (with_reducible assumption)
  | (with_reducible exact Keeps.upd fun _ h => h)
  | (with_reducible refine Keeps.bind ?_ fun _ => ?_)
  | split)

theorem Keeps.removeSavedKey : Keeps removeSavedKey := by unfold Scan.removeSavedKey; keeps
theorem Keeps.saveKey : Keeps saveKey := by
  have := Keeps.removeSavedKey
  unfold Scan.saveKey; keeps

theorem Keeps.rollIndent {a b c : Nat} {map : Bool} : Keeps (rollIndent a b c map) := by
  unfold Scan.rollIndent
  refine .getBind fun s hs => ?_
  dsimp only
  generalize (if map = true then Token.BlockMappingStart else Token.BlockSequenceStart) = token
  have hnew : ZeroedIn (s.sc.context.indentIncrement c b map) :=
    ⟨fun h : false = true => Bool.noConfusion h, hs⟩
  split
  · split
    · exact .bind (.upd fun _ _ => hnew) fun _ => .enqueue
    · split
      · next h =>
        refine .bind (.upd fun _ _ => ?_) fun _ => .enqueue
        simp only [Bool.and_eq_true, beq_iff_eq] at h
        obtain ⟨⟨-, hl⟩, hm⟩ := h
        unfold Context.level at hl
        unfold lastIsMap at hm
        cases hi : s.sc.context.indents with
        | nil => rw [hi] at hm; cases hm
        | cons d ds =>
          rw [hi] at hm
          refine ⟨fun _ => ⟨?_, d, ds, hi, by simpa using hm⟩, hs⟩
          split at hl
          · exact (Option.some.inj hl : s.sc.context.indent = c)
          · cases hl
      · exact .pure
  · exact .pure

theorem Keeps.rollHere {map : Bool} : Keeps (rollHere map) := by
  unfold Scan.rollHere; exact .bind .get fun _ => .rollIndent
theorem Keeps.finish {a : MaybeToken} {c : Cur} : Keeps (finish a c) := by
  have := Keeps.saveKey
  unfold Scan.finish; keeps
theorem Keeps.expireKey : Keeps expireKey := by unfold Scan.expireKey; keeps
theorem Keeps.fetchStreamStart : Keeps fetchStreamStart := by unfold Scan.fetchStreamStart; keeps
theorem Keeps.fetchStreamEnd : Keeps fetchStreamEnd := by
  have := Keeps.removeSavedKey
  unfold Scan.fetchStreamEnd; keeps
theorem Keeps.fetchDocumentMarker {b : Bool} : Keeps (fetchDocumentMarker b) := by
  have := Keeps.removeSavedKey
  unfold Scan.fetchDocumentMarker; keeps
theorem Keeps.fetchExplicitKey : Keeps fetchExplicitKey := by
  have := Keeps.removeSavedKey
  have := fun map => Keeps.rollHere (map := map)
  unfold Scan.fetchExplicitKey Scan.explicitKeyCheck; keeps; exact this _
theorem Keeps.fetchValue : Keeps fetchValue := by
  unfold Scan.fetchValue Scan.valueKey Scan.valueSaved Scan.valueBare Scan.valueCheck
  keeps <;> first | exact Keeps.rollHere | exact Keeps.rollIndent
theorem Keeps.fetchFlowStart {b : Bool} : Keeps (fetchFlowStart b) := by
  have := Keeps.saveKey
  have : Keeps (Scan.upd fun sc => { sc with context := sc.context.flowIncrement }) := .upd fun _ h => h
  unfold Scan.fetchFlowStart; keeps
theorem Keeps.fetchFlowEnd {b : Bool} : Keeps (fetchFlowEnd b) := by
  unfold Scan.fetchFlowEnd
  refine .bind .removeSavedKey fun _ => .getBind fun s hs => ?_
  unfold Context.flowDecrement
  split
  · exact fun _ h => h
  · next n _ =>
    show Keeps (do
      Scan.upd fun sc => { sc with context := { s.sc.context with flow := n }, simpleKeyAllowed := false }
      Scan.advance 1
      Scan.push (if b then .FlowMappingEnd else .FlowSequenceEnd))
    exact .bind (.upd fun _ _ => hs) fun _ => .bind .advance fun _ => .push
theorem Keeps.fetchFlowEntry : Keeps fetchFlowEntry := by
  have := Keeps.removeSavedKey
  unfold Scan.fetchFlowEntry; keeps
theorem Keeps.fetchBlockEntry : Keeps fetchBlockEntry := by
  have := Keeps.removeSavedKey
  have := fun map => Keeps.rollHere (map := map)
  have : Keeps (Scan.upd fun sc => { sc with context := touchZero sc.stats sc.context }) := by
    refine .upd fun sc h => ?_
    show ZeroedIn (touchZero sc.stats sc.context)
    unfold touchZero
    split
    · exact h
    · next e es hi =>
      split
      · unfold ZeroedIn at h
        rw [hi] at h
        exact h
      · exact h
  unfold Scan.fetchBlockEntry Scan.blockEntryCheck; keeps; exact Keeps.rollHere

theorem Keeps.run {o : SFlags} {f : Fetch} : Keeps (run o f) := by
  have h1 := Keeps.removeSavedKey
  have h2 := Keeps.saveKey
  have h3 := fun a c => Keeps.finish (a := a) (c := c)
  cases f with
  | marker b => exact .fetchDocumentMarker
  | flowStart b => exact .fetchFlowStart
  | flowEnd b => exact .fetchFlowEnd
  | flowEntry => exact .fetchFlowEntry
  | blockEntry => exact .fetchBlockEntry
  | explicitKey => exact .fetchExplicitKey
  | value => exact .fetchValue
  | unknown => exact .fail
  | directive => unfold Scan.run fetchDirective; keeps
  | anchor => unfold Scan.run fetchAnchor; keeps; exact h3 _ _
  | tag => unfold Scan.run fetchTag; keeps; exact h3 _ _
  | quoted => unfold Scan.run fetchFlowScalar; keeps; exact h3 _ _
  | plain => unfold Scan.run fetchPlainScalar; keeps
  | block fold => unfold Scan.run fetchBlockScalar; keeps

theorem Keeps.prepare {o : SFlags} : Keeps (prepare o) := by
  have := Keeps.expireKey
  unfold Scan.prepare eatWhitespace; keeps

theorem Keeps.scanNextToken {o : SFlags} : Keeps (scanNextToken o) := by
  have h1 := Keeps.fetchStreamStart
  have h2 := Keeps.prepare (o := o)
  have h3 := Keeps.fetchStreamEnd
  have h4 := fun f => Keeps.run (o := o) (f := f)
  unfold Scan.scanNextToken fetchNext; keeps; exact h4 _

end

/-! ## Doing again what precedes a token -/

/-- There is nothing to do before the next token. -/
structure Settled (s : SS) : Prop where
  ne : s.buf ≠ []
  blank : isBlank s.buf = false
  brk : isBreak s.buf = false
  comment : startsWith s.buf b! '#' = false
  key : ∀ k, s.sc.key = some k → (k.possible.allowed &&
    (k.stats.lines < s.sc.stats.lines || k.stats.read + 1024 < s.sc.stats.read)) = false
  level : s.sc.context.isBlock = true → s.sc.context.indents = [] ∨ s.sc.context.indent ≤ s.sc.stats.column
  zero : ∀ e es, s.sc.context.indents = e :: es → ¬ ZeroDue e s

theorem Settled.grow {t : Str} {k : Nat} {pre : Pre} {s : SS} (hv : validUtf8 s.buf = true) (h : Settled s) :
    Settled (SS.grow t k pre s) where
  ne := by
    show s.buf ++ t ≠ []
    intro h0
    exact h.ne (List.append_eq_nil_iff.1 h0).1
  blank := (isBlank_grow h.ne).trans h.blank
  brk := (isBreak_grow hv h.ne).trans h.brk
  comment := (startsWith_grow h.ne _).trans h.comment
  key := h.key
  level := h.level
  zero := by
    intro e es hi hz
    refine h.zero e es hi ⟨hz.1, hz.2.1, hz.2.2.1, ?_⟩
    rw [← hz.2.2.2]
    exact (startsWith_grow h.ne _).symm

theorem Settled.setKey {s : SS} (h : Settled s) :
    Settled { s with sc := { s.sc with key := none, simpleKeyAllowed := true } } where
  ne := h.ne
  blank := h.blank
  brk := h.brk
  comment := h.comment
  key := fun _ h => by cases h
  level := h.level
  zero := h.zero

theorem popLoop_done {column : Option Nat} {l : List IndentEntry} {i : Nat} (h : l = [] ∨ deeper i column = false) :
    popLoop column l i = (l, i, 0) := by
  cases l with
  | nil => rfl
  | cons e es =>
    rcases h with h | h
    · cases h
    · rw [popLoop, h, if_neg (by decide)]

theorem popLoop_stops (column : Option Nat) (l : List IndentEntry) (i : Nat) :
    (popLoop column l i).1 = [] ∨ deeper (popLoop column l i).2.1 column = false := by
  induction l generalizing i with
  | nil => exact .inl rfl
  | cons e es ih =>
    rw [popLoop]
    by_cases h : deeper i column = true
    · rw [if_pos h]; exact ih _
    · rw [if_neg h]; exact .inr (by simpa using h)

theorem eatWs_settled {o : SFlags} (hx : o.extendable = false) {s : SS} (h : Settled s) :
    eatWs o true ⟨s.buf, {}⟩ = .ok ⟨s.buf, {}⟩ := by
  unfold eatWs
  rw [eatWsLoop]
  simp only [cache_whole o hx, Out.ok_bind, h.blank, h.brk, h.comment, Bool.and_false, Bool.false_and, Bool.false_eq_true,
    ↓reduceIte]

/-- Nothing is done before the next token. -/
theorem Settled.prepare {o : SFlags} (hx : o.extendable = false) {s : SS} (h : Settled s) : prepare o s = (.ok (), s) := by
  have h1 : eatWhitespace o s = (.ok (), s) := by
    unfold eatWhitespace sub
    simp only [bind, SO.bind, Scan.get, SO.get, SO.lift, eatWs_settled hx h, Scan.upd, SO.modify, ne_eq, not_true_eq_false,
      ↓reduceIte, MStats.add_zero, commit, Nat.sub_self]
    rw [if_pos (by simp [isBoundary])]
  have h2 : expireKey s = (.ok (), s) := by
    unfold expireKey
    simp only [bind, SO.bind, Scan.get, SO.get]
    cases hk : s.sc.key with
    | none => rfl
    | some key =>
      simp only
      rw [h.key key hk]
      rfl
  have h3 : unrollIndent (some s.sc.stats.column) s = (.ok (), s) := by
    unfold unrollIndent SO.modify Context.indentDecrement
    by_cases hb : s.sc.context.isBlock = true
    · have hl : s.sc.context.indents = [] ∨ deeper s.sc.context.indent (some s.sc.stats.column) = false :=
        (h.level hb).imp_right fun h => by simpa [deeper] using h
      simp only [if_pos hb, popLoop_done hl, List.replicate_zero, List.append_nil]
    · simp only [if_neg hb, List.replicate_zero, List.append_nil]
  have h4 : popZeroIndent s = (.ok (), s) := by
    cases hi : s.sc.context.indents with
    | nil => exact popZeroIndent_nil hi
    | cons e es => exact popZeroIndent_neg hi (h.zero e es hi)
  unfold Scan.prepare
  rw [bind_run h1, bind_run h2, bind_run (rfl : Scan.get s = (.ok s, s)), bind_run h3]
  exact h4

theorem expireKey_settled {s s1 : SS} (h : expireKey s = (.ok (), s1)) :
    s1.buf = s.buf ∧ s1.sc.stats = s.sc.stats ∧ s1.sc.context = s.sc.context ∧
      ∀ k, s1.sc.key = some k → (k.possible.allowed &&
        (k.stats.lines < s1.sc.stats.lines || k.stats.read + 1024 < s1.sc.stats.read)) = false := by
  unfold expireKey at h
  obtain ⟨_, _, hg, h⟩ := bind_ok h
  obtain ⟨rfl, rfl⟩ := get_ok hg
  cases hk : s.sc.key with
  | none =>
    simp only [hk] at h
    cases h
    exact ⟨rfl, rfl, rfl, fun k h => by rw [hk] at h; cases h⟩
  | some key =>
    simp only [hk] at h
    by_cases hc : (key.possible.allowed &&
        (key.stats.lines < s.sc.stats.lines || key.stats.read + 1024 < s.sc.stats.read)) = true
    · rw [if_pos hc] at h
      by_cases hr : key.possible.required = true
      · rw [if_pos hr] at h; cases h
      · rw [if_neg hr] at h
        cases h
        exact ⟨rfl, rfl, rfl, fun k h => by cases h; rfl⟩
    · rw [if_neg hc] at h
      cases h
      exact ⟨rfl, rfl, rfl, fun k h => by rw [hk] at h; cases h; simpa using hc⟩

/-- After what precedes a token is done, there is nothing to do. -/
theorem prepare_settled {o : SFlags} (hx : o.extendable = true) {s s1 : SS} (hv : validUtf8 s.buf = true)
    (hz : ZeroedIn s.sc.context) (h : Scan.prepare o s = (.ok (), s1)) : Settled s1 := by
  unfold Scan.prepare at h
  obtain ⟨_, s2, h2, h⟩ := bind_ok h
  have hz2 : ZeroedIn s2.sc.context := by
    have : Keeps (eatWhitespace o) := by unfold eatWhitespace; keeps
    have := this s hz
    rwa [h2] at this
  have hw : s2.buf ≠ [] ∧ isBlank s2.buf = false ∧ isBreak s2.buf = false ∧ startsWith s2.buf b! '#' = false := by
    unfold eatWhitespace at h2
    obtain ⟨c, s3, h3, h2⟩ := bind_ok h2
    obtain ⟨hc, rfl⟩ := sub_ok h3
    obtain ⟨_, s4, h4, h2⟩ := bind_ok h2
    obtain ⟨_, s5, h5, h2⟩ := bind_ok h2
    rw [commit_ok h2]
    have hl := eatWs_later (o := o) (o' := { o with extendable := false }) (t := []) hx rfl (fun _ _ h => by cases h)
      (comments := true) (c := ⟨s.buf, {}⟩) hv
    rw [hc] at hl
    rcases hl with hl | ⟨_, -, -, h1, h2, h3, h4⟩
    · exact hl.elim
    · exact ⟨h1, h2, h3, h4⟩
  obtain ⟨_, s3, h3, h⟩ := bind_ok h
  obtain ⟨hb3, -, hc3, hk⟩ := expireKey_settled h3
  obtain ⟨_, _, hg, h⟩ := bind_ok h
  obtain ⟨rfl, rfl⟩ := get_ok hg
  obtain ⟨_, s4, h4, h⟩ := bind_ok h
  have hz4 : ZeroedIn s4.sc.context := by
    have := Keeps.unrollIndent (c := some s3.sc.stats.column) s3 (by rw [hc3]; exact hz2)
    rwa [h4] at this
  have hs4 : s4.buf = s3.buf ∧ s4.sc.stats = s3.sc.stats ∧ s4.sc.key = s3.sc.key ∧
      (s4.sc.context.isBlock = true → s4.sc.context.indents = [] ∨ s4.sc.context.indent ≤ s4.sc.stats.column) := by
    unfold unrollIndent SO.modify Context.indentDecrement at h4
    cases h4
    refine ⟨rfl, rfl, rfl, ?_⟩
    by_cases hb : s3.sc.context.isBlock = true
    · simp only [if_pos hb]
      intro _
      exact (popLoop_stops _ _ _).imp_right fun h => by simpa [deeper] using h
    · simp only [if_neg hb]
      exact fun h => absurd h hb
  obtain ⟨hb4, hst4, hk4, hl4⟩ := hs4
  have hw4 := hw
  rw [← hb3, ← hb4] at hw4
  have hkey : ∀ k, s4.sc.key = some k → (k.possible.allowed &&
        (k.stats.lines < s4.sc.stats.lines || k.stats.read + 1024 < s4.sc.stats.read)) = false := by
    rw [hk4, hst4]; exact hk
  cases hi : s4.sc.context.indents with
  | nil =>
    rw [popZeroIndent_nil hi] at h
    cases h
    exact ⟨hw4.1, hw4.2.1, hw4.2.2.1, hw4.2.2.2, hkey, fun _ => .inl hi, fun e es h => by rw [hi] at h; cases h⟩
  | cons e es =>
    by_cases hd : ZeroDue e s4
    · rw [popZeroIndent_pos hi hd] at h
      cases h
      unfold ZeroedIn at hz4
      rw [hi] at hz4
      obtain ⟨he, d, ds, rfl, hd'⟩ := hz4.1 hd.2.1
      refine ⟨hw4.1, hw4.2.1, hw4.2.2.1, hw4.2.2.2, hkey, fun hb => .inr ?_, ?_⟩
      · show e.indent ≤ s4.sc.stats.column
        rw [he]
        rcases hl4 hb with h | h
        · rw [hi] at h; cases h
        · exact h
      · rintro e1 es1 h1 h2
        cases h1
        have := h2.2.2.1
        rw [hd'] at this
        cases this
    · rw [popZeroIndent_neg hi hd] at h
      cases h
      refine ⟨hw4.1, hw4.2.1, hw4.2.2.1, hw4.2.2.2, hkey, hl4, ?_⟩
      intro e1 es1 h1
      rw [hi] at h1
      cases h1
      exact hd

/-! ## Where a step asks for more -/

section
variable {α β : Type}

theorem ext_bind {m : Scan α} {f : α → Scan β} {s s1 : SS} (h : (m >>= f) s = (.err .Extend, s1)) :
    m s = (.err .Extend, s1) ∨ ∃ a s2, m s = (.ok a, s2) ∧ f a s2 = (.err .Extend, s1) := by
  simp only [Bind.bind, SO.bind] at h
  generalize m s = r at h
  obtain ⟨x, s2⟩ := r
  cases x with
  | ok a => exact .inr ⟨a, s2, rfl, h⟩
  | err e => cases h; exact .inl rfl
  | panic => cases h
  | diverge => cases h

theorem Calm.not {m : Scan α} (h : Calm m) {s s1 : SS} : m s ≠ (.err .Extend, s1) := by
  intro h'
  have := h s
  rw [h'] at this
  exact this rfl

/-- A calm method, and then one that asks for more. -/
theorem Calm.ext {m : Scan α} {f : α → Scan β} (hm : Calm m) {s s1 : SS} (h : (m >>= f) s = (.err .Extend, s1)) :
    ∃ a s2, m s = (.ok a, s2) ∧ f a s2 = (.err .Extend, s1) :=
  (ext_bind h).resolve_left hm.not

/-- A method that asks for more, and would be followed by a calm one. -/
theorem ext_calm {m : Scan α} {f : α → Scan β} (hf : ∀ a, Calm (f a)) {s s1 : SS}
    (h : (m >>= f) s = (.err .Extend, s1)) : m s = (.err .Extend, s1) := by
  rcases ext_bind h with h | ⟨a, s2, -, h⟩
  · exact h
  · exact absurd h (hf a).not

theorem sub_ext {st : MStats} {f : Cur → Out ScanError α} {s s1 : SS} (h : sub st f s = (.err .Extend, s1)) : s1 = s := by
  unfold sub at h
  obtain ⟨_, _, hg, h⟩ := Calm.get.ext h
  obtain ⟨rfl, rfl⟩ := get_ok hg
  exact (congrArg Prod.snd h).symm

theorem run_ext {o : SFlags} {f : Fetch} {s s1 : SS} (h : run o f s = (.err .Extend, s1)) :
    s1 = s ∨ (∃ fold, f = .block fold) ∧ removeSavedKey s = (.ok (), s.setKey none) ∧
      s1 = { s with sc := { s.sc with key := none, simpleKeyAllowed := true } } := by
  have hk := Calm.removeSavedKey
  have hs := Calm.saveKey
  cases f with
  | directive =>
    unfold run fetchDirective at h
    exact .inl (sub_ext (ext_calm (fun a => by calm) h))
  | marker b => exact absurd h Calm.fetchDocumentMarker.not
  | flowStart b => exact absurd h Calm.fetchFlowStart.not
  | flowEnd b => exact absurd h Calm.fetchFlowEnd.not
  | flowEntry => exact absurd h Calm.fetchFlowEntry.not
  | blockEntry => exact absurd h Calm.fetchBlockEntry.not
  | explicitKey => exact absurd h Calm.fetchExplicitKey.not
  | value => exact absurd h Calm.fetchValue.not
  | anchor =>
    unfold run fetchAnchor at h
    obtain ⟨_, _, hg, h⟩ := Calm.get.ext h
    obtain ⟨rfl, rfl⟩ := get_ok hg
    exact .inl (sub_ext (ext_calm (fun a => .finish) h))
  | tag =>
    unfold run fetchTag at h
    exact .inl (sub_ext (ext_calm (fun a => .finish) h))
  | quoted =>
    unfold run fetchFlowScalar at h
    obtain ⟨_, _, hg, h⟩ := Calm.get.ext h
    obtain ⟨rfl, rfl⟩ := get_ok hg
    exact .inl (sub_ext (ext_calm (fun a => .finish) h))
  | plain =>
    unfold run fetchPlainScalar at h
    obtain ⟨_, _, hg, h⟩ := Calm.get.ext h
    obtain ⟨rfl, rfl⟩ := get_ok hg
    exact .inl (sub_ext (ext_calm (fun a => by calm) h))
  | block fold =>
    unfold run fetchBlockScalar at h
    obtain ⟨_, s2, h2, h⟩ := hk.ext h
    obtain rfl := removeKey_ok h2
    obtain ⟨_, _, hu, h⟩ := Calm.upd.ext h
    cases hu
    obtain ⟨_, _, hg, h⟩ := Calm.get.ext h
    obtain ⟨rfl, rfl⟩ := get_ok hg
    have := sub_ext (ext_calm (fun a => by calm) h)
    exact .inr ⟨⟨fold, rfl⟩, h2, this⟩
  | unknown => cases h

end

/-- A step that asked for more text is, once there is more, done again as if nothing had happened. -/
theorem scanNextToken_retry {o o' : SFlags} {t : Str} {V : Str → Prop} {pre : Pre} (hS : Subs pre.g (fun s => validUtf8 s = true) V False o o' t)
    (hx : o.extendable = true) (hx' : o'.extendable = false) {s s1 : SS} (hV : V s.buf)
    (hz : ZeroedIn s.sc.context) (hd : s.sc.state ≠ .Done) (h : Scan.scanNextToken o s = (.err .Extend, s1)) (k : Nat) :
    Scan.scanNextToken o' (SS.grow t k pre s) = Scan.scanNextToken o' (SS.grow t k pre s1) := by
  have hv : validUtf8 s.buf = true := hS.weak hV
  unfold Scan.scanNextToken at h
  obtain ⟨_, _, hg, h⟩ := Calm.get.ext h
  obtain ⟨rfl, rfl⟩ := get_ok hg
  by_cases hst : (s.sc.state == .Start) = true
  · rw [if_pos hst] at h
    exact absurd h Calm.fetchStreamStart.not
  rw [if_neg hst] at h
  rcases ext_bind h with h | ⟨_, s2, h2, h⟩
  · unfold Scan.prepare at h
    have h := ext_calm (fun _ => by have := Calm.expireKey; calm) h
    unfold eatWhitespace at h
    rw [sub_ext (ext_calm (fun _ => by calm) h)]
  · have hf := prepare_follows (k := k) (pre := pre) hS hV
    unfold Follows at hf
    rw [h2] at hf
    obtain ⟨_, hw, hV2, -⟩ := hf
    have hv2 : validUtf8 s2.buf = true := hS.weak hV2
    have hset := prepare_settled hx hv hz h2
    have hr := ((closed_rest s.buf s.sc.offset).prepare (P := True) (opts := o) (.inl trivial)
      ⟨hv, ⟨[], rfl⟩, rfl, hd⟩).of_ok h2
    have hst2 : s2.sc.state = s.sc.state := hr.2.2.1
    have hd2 : s2.sc.state ≠ .Done := by rw [hst2]; exact hd
    have hgo : ∀ {s3 : SS}, s3.sc.state = s.sc.state → Scan.scanNextToken o' (SS.grow t k pre s3) =
        (Scan.prepare o' >>= fun _ => fetchNext o') (SS.grow t k pre s3) := by
      intro s3 h3
      unfold Scan.scanNextToken
      rw [bind_run (rfl : Scan.get _ = (.ok _, _)), if_neg (by rw [show (SS.grow t k pre s3).sc.state = _ from h3]; exact hst)]
    have hbuf : (s2.buf.isEmpty || s2.sc.state == .Done) = false := by simp [hset.ne, hd2]
    have hbuf' : ((SS.grow t k pre s2).buf.isEmpty || (SS.grow t k pre s2).sc.state == .Done) = false := by
      show ((s2.buf ++ t).isEmpty || s2.sc.state == .Done) = false
      rw [isEmpty_grow hset.ne, hbuf]
    rw [hgo rfl, bind_run hw]
    unfold fetchNext at h
    obtain ⟨_, _, hg, h⟩ := Calm.get.ext h
    obtain ⟨rfl, rfl⟩ := get_ok hg
    rw [if_neg (by rw [hbuf]; decide)] at h
    have hsame : s1 = s2 ∨ (∃ fold, dispatch s2.sc.context s2.sc.stats.column (s2.buf ++ t) = .block fold) ∧
        removeSavedKey s2 = (.ok (), s2.setKey none) ∧
        s1 = { s2 with sc := { s2.sc with key := none, simpleKeyAllowed := true } } := by
      rcases ext_bind h with h | ⟨_, s3, h3, h⟩
      · exact .inl (congrArg Prod.snd h).symm
      · have h3' : cache o 4 s2.buf = .ok () ∧ s2 = s3 := by
          simp only [SO.lift, Prod.mk.injEq] at h3
          exact h3
        obtain ⟨hc, rfl⟩ := h3'
        have hd3 := hS.cached hV2
        rw [hc] at hd3
        rcases hd3 with hd3 | ⟨_, -, -, hd3⟩
        · exact hd3.elim
        rw [hd3]
        exact run_ext h
    rcases hsame with rfl | ⟨⟨fold, hfold⟩, hk, rfl⟩
    · rw [hgo hst2, bind_run ((hset.grow hv2).prepare hx')]
    · rw [hgo (by exact hst2), bind_run ((hset.setKey.grow (by exact hv2)).prepare hx')]
      have hb := (blind_removeSavedKey s2 t k pre).1
      rw [hk] at hb
      unfold fetchNext
      rw [bind_run (rfl : Scan.get _ = (.ok _, _)), bind_run (rfl : Scan.get _ = (.ok _, _)), if_neg (by rw [hbuf']; decide),
        if_neg (by
          rw [show ((SS.grow t k pre { s2 with sc := { s2.sc with key := none, simpleKeyAllowed := true } }).buf.isEmpty ||
            (SS.grow t k pre { s2 with sc := { s2.sc with key := none, simpleKeyAllowed := true } }).sc.state == .Done) = false
            from hbuf']; decide), cache_whole o' hx', cache_whole o' hx',
        bind_run (rfl : (SO.lift (.ok ()) : Scan Unit) _ = (.ok _, _)),
        bind_run (rfl : (SO.lift (.ok ()) : Scan Unit) _ = (.ok _, _))]
      rw [show dispatch (SS.grow t k pre s2).sc.context (SS.grow t k pre s2).sc.stats.column (SS.grow t k pre s2).buf = _
          from hfold,
        show dispatch (SS.grow t k pre { s2 with sc := { s2.sc with key := none, simpleKeyAllowed := true } }).sc.context
          (SS.grow t k pre { s2 with sc := { s2.sc with key := none, simpleKeyAllowed := true } }).sc.stats.column
          (SS.grow t k pre { s2 with sc := { s2.sc with key := none, simpleKeyAllowed := true } }).buf = _ from hfold]
      rw [show run o' (.block fold) = fetchBlockScalar o' fold from rfl]
      unfold fetchBlockScalar
      rw [bind_run hb, bind_run (m := removeSavedKey) (rfl : removeSavedKey (SS.grow t k pre { s2 with
        sc := { s2.sc with key := none, simpleKeyAllowed := true } }) = (.ok (), _))]
      rfl

end Yary.Chunk
