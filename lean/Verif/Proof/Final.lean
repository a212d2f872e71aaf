import Verif.Proof.Scan.FaultStep
import Verif.Proof.Scan.Comes
import Verif.Proof.Scan.BlockShift
import Verif.Proof.Chunk.Retry

/-! # A text the scanner has refused is refused again -/

namespace Yary.Final

open Yary

variable {opts : SFlags} {α β : Type}

/-- The errors a scanner may get over when it is asked again. -/
def Passing (e : ScanError) : Prop := e = .MissingValue ∨ e = .Extend

/-- Why fetching a token fails before anything is changed. -/
def Refused (opts : SFlags) (flow : Nat) (ska : Bool) (key : Option KeySave) (buf : Str) : Scan.Fetch → Prop
  | .unknown => True
  | .directive => ∃ e, ¬ e = .Extend ∧ Scan.directiveToken opts ⟨buf, {}⟩ = .err e
  | .anchor => ∃ e, ¬ e = .Extend ∧ scanAnchor opts (startsWith buf b! '*') ⟨buf, {}⟩ = .err e
  | .tag => ∃ e, ¬ e = .Extend ∧ scanNodeTag opts ⟨buf, {}⟩ = .err e
  | .quoted => ∃ e, ¬ e = .Extend ∧ scanFlow opts (startsWith buf 0x27) ⟨buf, {}⟩ = .err e
  | .flowEnd _ => flow = 0
  | .blockEntry => ¬ (flow = 0 ∧ ska = true)
  | .explicitKey => flow = 0 ∧ ska = false
  | .value => flow = 0 ∧ ska = false ∧ ∀ k, key = some k → k.possible.allowed = false
  | _ => False

/-- A key that must have a value and can no longer get one. -/
def Stale (m : MStats) (k : KeySave) : Prop :=
  k.possible.required = true ∧ (k.stats.lines < m.lines ∨ k.stats.read + 1024 < m.read)

/-- No block collection has to end before a token in this column. -/
def Even (column : Nat) (x : Context) : Prop := x.indents = [] ∨ x.indent ≤ column

/-- A scanner that will fail on this buffer. -/
inductive Bad (opts : SFlags) (buf : Str) (sc : Scanner) : Prop
  | ws {e : ScanError} (hs : sc.state = .Stream) (he : ¬ e = .Extend) (h : eatWs opts true ⟨buf, {}⟩ = .err e)
  | key {c : Cur} {k : KeySave} (hs : sc.state = .Stream) (h : eatWs opts true ⟨buf, {}⟩ = .ok c)
      (hb : isBoundary buf (buf.length - c.buf.length) = true) (hk : sc.key = some k) (hd : Stale (sc.stats.add c.stats) k)
  | fetch {c : Cur} (hs : sc.state = .Stream) (h : eatWs opts true ⟨buf, {}⟩ = .ok c)
      (hb : isBoundary buf (buf.length - c.buf.length) = true) (hn : c.buf ≠ [])
      (hr : Refused opts sc.context.flow (if c.stats.lines ≠ 0 then true else sc.simpleKeyAllowed) sc.key c.buf
        (Scan.dispatch sc.context (sc.stats.add c.stats).column c.buf))
  | block {c : Cur} {fold : Bool} {e : ScanError} (hs : sc.state = .Stream) (h : eatWs opts true ⟨buf, {}⟩ = .ok c)
      (hb : isBoundary buf (buf.length - c.buf.length) = true) (hn : c.buf ≠ [])
      (hd : Scan.dispatch sc.context (sc.stats.add c.stats).column c.buf = .block fold) (hz : Chunk.ZeroedIn sc.context)
      (hl : Even (sc.stats.add c.stats).column sc.context) (he : ¬ e = .Extend)
      (hr : ∀ m, scanBlock opts (sc.context.level.getD 0) fold ⟨c.buf, m⟩ = .err e)

theorem dispatch_congr {x x' : Context} {n n' : Nat} {s : Str} (h : x.flow = x'.flow) (hn : (n == 0) = (n' == 0)) :
    Scan.dispatch x n s = Scan.dispatch x' n' s := by
  unfold Scan.dispatch
  have h1 : x.isFlow = x'.isFlow := by unfold Context.isFlow; rw [h]
  have h2 : x.isBlock = x'.isBlock := by unfold Context.isBlock; rw [h]
  rw [h1, h2, hn]

theorem required_allowed {p : KeyPossible} (h : p.required = true) : p.allowed = true := by
  cases p <;> simp_all [KeyPossible.required, KeyPossible.allowed]

/-- The scanner after the white space `c` has skipped. -/
def moved (sc : Scanner) (c : Cur) : Scanner :=
  { sc with stats := sc.stats.add c.stats, simpleKeyAllowed := if c.stats.lines ≠ 0 then true else sc.simpleKeyAllowed }

theorem eat_run {s : SS} {c : Cur} (h : eatWs opts true ⟨s.buf, {}⟩ = .ok c) (hb : isBoundary s.buf (s.buf.length - c.buf.length) = true) :
    Scan.eatWhitespace opts s = (.ok (), { s with buf := c.buf, sc := moved s.sc c }) := by
  unfold Scan.eatWhitespace Scan.sub
  simp [bind, SO.bind, Scan.get, SO.get, SO.lift, h, Scan.upd, SO.modify, Scan.commit, hb, moved]

theorem eat_err {s s' : SS} {e : ScanError} (h : Scan.eatWhitespace opts s = (.err e, s')) :
    s' = s ∧ eatWs opts true ⟨s.buf, {}⟩ = .err e := by
  unfold Scan.eatWhitespace Scan.sub at h
  simp only [bind, SO.bind, Scan.get, SO.get, SO.lift] at h
  cases hc : eatWs opts true ⟨s.buf, {}⟩ with
  | ok c =>
    rw [hc] at h
    simp only [Scan.upd, SO.modify, Scan.commit] at h
    split at h <;> simp at h
  | err e' => rw [hc] at h; simp at h; exact ⟨h.2.symm, by rw [h.1]⟩
  | panic => rw [hc] at h; simp at h
  | diverge => rw [hc] at h; simp at h

theorem eat_ok {s s' : SS} (h : Scan.eatWhitespace opts s = (.ok (), s')) :
    ∃ c, eatWs opts true ⟨s.buf, {}⟩ = .ok c ∧ isBoundary s.buf (s.buf.length - c.buf.length) = true ∧
      s' = { s with buf := c.buf, sc := moved s.sc c } := by
  cases hc : eatWs opts true ⟨s.buf, {}⟩ with
  | ok c =>
    have h0 := h
    unfold Scan.eatWhitespace Scan.sub at h
    simp only [bind, SO.bind, Scan.get, SO.get, SO.lift, hc, Scan.upd, SO.modify, Scan.commit] at h
    split at h
    · rename_i hb
      have := eat_run (opts := opts) hc hb
      rw [h0] at this
      simp only [Prod.mk.injEq, true_and] at this
      exact ⟨c, rfl, hb, this⟩
    · simp at h
  | err e' => unfold Scan.eatWhitespace Scan.sub at h; simp [bind, SO.bind, Scan.get, SO.get, SO.lift, hc] at h
  | panic => unfold Scan.eatWhitespace Scan.sub at h; simp [bind, SO.bind, Scan.get, SO.get, SO.lift, hc] at h
  | diverge => unfold Scan.eatWhitespace Scan.sub at h; simp [bind, SO.bind, Scan.get, SO.get, SO.lift, hc] at h

/-- The key stays, or is no longer possible. -/
def KeyLess (k k' : Option KeySave) : Prop := k' = k ∨ ∃ k0, k = some k0 ∧ k' = some { k0 with possible := .No }

theorem expire_cases (s : SS) :
    (∃ k, s.sc.key = some k ∧ Stale s.sc.stats k ∧ Scan.expireKey s = (.err .MissingValue, s)) ∨
    (∃ k', Scan.expireKey s = (.ok (), { s with sc := { s.sc with key := k' } }) ∧ KeyLess s.sc.key k') := by
  unfold Scan.expireKey
  rw [bind_run (m := Scan.get) (a := s) (s1 := s) rfl]
  cases hk : s.sc.key with
  | none => exact .inr ⟨none, by show (_, s) = _; rw [← hk], .inl rfl⟩
  | some k =>
    simp only
    split
    · rename_i hst
      split
      · rename_i hr
        refine .inl ⟨k, rfl, ⟨hr, ?_⟩, rfl⟩
        simpa using (Bool.and_eq_true_iff.1 hst).2
      · exact .inr ⟨_, rfl, .inr ⟨k, rfl, rfl⟩⟩
    · exact .inr ⟨some k, by show (_, s) = _; rw [← hk], .inl rfl⟩

theorem expire_stale {s : SS} {k : KeySave} (hk : s.sc.key = some k) (hd : Stale s.sc.stats k) : Scan.expireKey s = (.err .MissingValue, s) := by
  unfold Scan.expireKey
  rw [bind_run (m := Scan.get) (a := s) (s1 := s) rfl, hk]
  simp only
  rw [if_pos (by rw [required_allowed hd.1]; simpa using hd.2), if_pos hd.1]
  rfl

theorem popZero_keeps (s : SS) : (Scan.popZeroIndent s).2.buf = s.buf ∧ (Scan.popZeroIndent s).2.sc.state = s.sc.state ∧
    (Scan.popZeroIndent s).2.sc.key = s.sc.key ∧ (Scan.popZeroIndent s).2.sc.stats = s.sc.stats ∧
    (Scan.popZeroIndent s).2.sc.simpleKeyAllowed = s.sc.simpleKeyAllowed ∧ (Scan.popZeroIndent s).2.sc.offset = s.sc.offset ∧
    (Scan.popZeroIndent s).2.sc.context.flow = s.sc.context.flow := by
  unfold Scan.popZeroIndent SO.modify
  simp only
  cases s.sc.context.indents with
  | nil => simp
  | cons e es => simp only; split <;> simp

theorem unroll_keeps (s : SS) (n : Option Nat) : (Scan.unrollIndent n s).2.sc.context.flow = s.sc.context.flow := by
  unfold Scan.unrollIndent SO.modify Context.indentDecrement
  simp only
  split <;> rfl

/-- What is ready for the next token. -/
structure Ready (s : SS) (c : Cur) (s2 : SS) : Prop where
  buf : s2.buf = c.buf
  state : s2.sc.state = s.sc.state
  stats : s2.sc.stats = s.sc.stats.add c.stats
  ska : s2.sc.simpleKeyAllowed = if c.stats.lines ≠ 0 then true else s.sc.simpleKeyAllowed
  offset : s2.sc.offset = s.sc.offset
  flow : s2.sc.context.flow = s.sc.context.flow
  key : KeyLess s.sc.key s2.sc.key

theorem prepare_rest (s : SS) : (∃ k, s.sc.key = some k ∧ Stale s.sc.stats k ∧ (Scan.expireKey >>= fun _ => Scan.get >>= fun s => Scan.unrollIndent (some s.sc.stats.column) >>= fun _ => Scan.popZeroIndent) s = (.err .MissingValue, s)) ∨
    ∃ s2, (Scan.expireKey >>= fun _ => Scan.get >>= fun s => Scan.unrollIndent (some s.sc.stats.column) >>= fun _ => Scan.popZeroIndent) s = (.ok (), s2) ∧
      s2.buf = s.buf ∧ s2.sc.state = s.sc.state ∧ s2.sc.stats = s.sc.stats ∧ s2.sc.simpleKeyAllowed = s.sc.simpleKeyAllowed ∧
      s2.sc.offset = s.sc.offset ∧ s2.sc.context.flow = s.sc.context.flow ∧ KeyLess s.sc.key s2.sc.key := by
  rcases expire_cases s with ⟨k, hk, hd, h⟩ | ⟨k', h, hk⟩
  · exact .inl ⟨k, hk, hd, bind_run_err h⟩
  · generalize hs1 : ({ s with sc := { s.sc with key := k' } } : SS) = s1 at h
    have hun : Scan.unrollIndent (some s1.sc.stats.column) s1 = (.ok (), (Scan.unrollIndent (some s1.sc.stats.column) s1).2) := rfl
    refine .inr ⟨(Scan.popZeroIndent (Scan.unrollIndent (some s1.sc.stats.column) s1).2).2, ?_, ?_⟩
    · rw [bind_run h, bind_run (m := Scan.get) (a := s1) (s1 := s1) rfl, bind_run hun]
      rfl
    · obtain ⟨p1, p2, p3, p4, p5, p6, p7⟩ := popZero_keeps (Scan.unrollIndent (some s1.sc.stats.column) s1).2
      rw [p1, p2, p3, p4, p5, p6, p7, unroll_keeps]
      subst hs1
      exact ⟨rfl, rfl, rfl, rfl, rfl, rfl, hk⟩

theorem prepare_cases {s : SS} {c : Cur} (h : eatWs opts true ⟨s.buf, {}⟩ = .ok c) (hb : isBoundary s.buf (s.buf.length - c.buf.length) = true) :
    (∃ k, s.sc.key = some k ∧ Stale (s.sc.stats.add c.stats) k ∧ Scan.prepare opts s = (.err .MissingValue, { s with buf := c.buf, sc := moved s.sc c })) ∨
    ∃ s2, Scan.prepare opts s = (.ok (), s2) ∧ Ready s c s2 := by
  unfold Scan.prepare
  rw [bind_run (eat_run h hb)]
  rcases prepare_rest { s with buf := c.buf, sc := moved s.sc c } with h | ⟨s2, h, h1, h2, h3, h4, h5, h6, h7⟩
  · exact .inl h
  · exact .inr ⟨s2, h, h1, h2, h3, h4, h5, h6, h7⟩

theorem bind_err {m : Scan α} {f : α → Scan β} {s s' : SS} {e : ScanError} (h : (m >>= f) s = (.err e, s')) :
    m s = (.err e, s') ∨ ∃ a s1, m s = (.ok a, s1) ∧ f a s1 = (.err e, s') := by
  simp only [bind, SO.bind] at h
  split at h
  · rename_i a s1 hm
    exact .inr ⟨a, s1, hm, h⟩
  · rename_i e' s1 hm
    simp only [Prod.mk.injEq, Out.err.injEq] at h
    obtain ⟨rfl, rfl⟩ := h
    exact .inl hm
  · simp at h
  · simp at h

/-- The only error is a missing value. -/
def OnlyMissing (m : Scan α) : Prop := ∀ s e s', m s = (.err e, s') → e = .MissingValue

namespace OnlyMissing

theorem bind {m : Scan α} {f : α → Scan β} (h : OnlyMissing m) (h' : ∀ a, OnlyMissing (f a)) : OnlyMissing (m >>= f) := by
  intro s e s' he
  rcases bind_err he with he | ⟨a, s1, -, he⟩
  · exact h _ _ _ he
  · exact h' a _ _ _ he

theorem pure {a : α} : OnlyMissing (Pure.pure a : Scan α) := by intro s e s' h; simp [Pure.pure, SO.pure] at h

theorem get : OnlyMissing Scan.get := by intro s e s' h; simp [Scan.get, SO.get] at h

theorem modify {f : SS → SS} : OnlyMissing (SO.modify f : Scan Unit) := by intro s e s' h; simp [SO.modify] at h

theorem commit {b : Str} {m : MStats} : OnlyMissing (Scan.commit b m) := by
  intro s e s' h
  unfold Scan.commit at h
  split at h <;> simp at h

theorem advance {n : Nat} : OnlyMissing (Scan.advance n) := by
  intro s e s' h
  unfold Scan.advance at h
  generalize hc : Cur.adv ⟨s.buf, s.sc.stats⟩ n = c at h
  cases c <;> simp at h
  unfold Cur.adv at hc
  split at hc <;> cases hc

theorem ite {c : Prop} [Decidable c] {m m' : Scan α} (h : OnlyMissing m) (h' : OnlyMissing m') : OnlyMissing (if c then m else m') := by
  split
  · exact h
  · exact h'

theorem push {t : Token} : OnlyMissing (Scan.push t) := get.bind fun _ => modify

theorem takeKey : OnlyMissing Scan.takeKey := get.bind fun _ => modify.bind fun _ => pure

theorem removeKey : OnlyMissing Scan.removeSavedKey := takeKey.bind fun k => by
  cases k with
  | none => exact pure
  | some k =>
    refine ite ?_ pure
    intro s e s' h
    simp [SO.fail] at h
    exact h.1.symm

theorem saveKey : OnlyMissing Scan.saveKey := get.bind fun _ => ite (removeKey.bind fun _ => modify) pure

theorem finish {t : MaybeToken} {c : Cur} : OnlyMissing (Scan.finish t c) :=
  saveKey.bind fun _ => modify.bind fun _ => get.bind fun _ => commit.bind fun _ => get.bind fun _ => modify

theorem rollIndent {a b c : Nat} {map : Bool} : OnlyMissing (Scan.rollIndent a b c map) :=
  get.bind fun _ => ite (ite (modify.bind fun _ => modify) (ite (modify.bind fun _ => modify) pure)) pure

theorem rollHere {map : Bool} : OnlyMissing (Scan.rollHere map) := get.bind fun _ => rollIndent

theorem valueSaved {k : KeySave} : OnlyMissing (Scan.valueSaved k) := rollIndent.bind fun _ => modify.bind fun _ => modify

end OnlyMissing

theorem sub_err {f : Cur → Out ScanError α} {m : MStats} {s s' : SS} {e : ScanError} (h : Scan.sub m f s = (.err e, s')) :
    f ⟨s.buf, m⟩ = .err e ∧ s' = s := by
  unfold Scan.sub at h
  simp only [bind, SO.bind, Scan.get, SO.get, SO.lift, Prod.mk.injEq] at h
  exact ⟨h.1, h.2.symm⟩

/-- What a refusal leaves as it was. -/
structure Same (s s' : SS) : Prop where
  state : s'.sc.state = s.sc.state
  stats : s'.sc.stats = s.sc.stats
  ska : s'.sc.simpleKeyAllowed = s.sc.simpleKeyAllowed
  offset : s'.sc.offset = s.sc.offset
  flow : s'.sc.context.flow = s.sc.context.flow
  key : s'.sc.key = s.sc.key ∨ s'.sc.key = none

theorem Same.refl (s : SS) : Same s s := ⟨rfl, rfl, rfl, rfl, rfl, .inl rfl⟩

/-- An error that is final comes of a refusal. -/
theorem run_refused {s s' : SS} {e : ScanError} {f : Scan.Fetch} (hp : ¬ Passing e) (hpl : f ≠ .plain) (hbl : ∀ b, f ≠ .block b)
    (h : Scan.run opts f s = (.err e, s')) :
    Refused opts s.sc.context.flow s.sc.simpleKeyAllowed s.sc.key s.buf f ∧ Same s s' := by
  have hm : ∀ {α : Type} {m : Scan α} {s1 s2 : SS} {p : Prop}, OnlyMissing m → m s1 = (.err e, s2) → p := fun hm h =>
    absurd (.inl (hm _ _ _ h)) hp
  have hne : ¬ e = .Extend := fun h => hp (.inr h)
  have blk : ∀ {x : Context}, x.isBlock = true → x.flow = 0 := fun h => by simpa [Context.isBlock] using h
  have bare : ∀ {s1 : SS}, Same s s1 → (∀ k, s.sc.key = some k → k.possible.allowed = false) → Scan.valueBare s1 = (.err e, s') → f = .value →
      Refused opts s.sc.context.flow s.sc.simpleKeyAllowed s.sc.key s.buf f ∧ Same s s' := by
    rintro s1 h1 hk hv rfl
    clear h
    have h := hv
    clear hv
    unfold Scan.valueBare at h
    rw [bind_run (m := Scan.get) (a := s1) (s1 := s1) rfl] at h
    rcases bind_err h with h | ⟨_, _, -, h⟩
    · unfold Scan.valueCheck at h
      rw [bind_run (m := Scan.get) (a := s1) (s1 := s1) rfl] at h
      split at h
      · rename_i hb
        split at h
        · rename_i ha
          simp only [SO.fail, Prod.mk.injEq] at h
          obtain ⟨-, rfl⟩ := h
          refine ⟨⟨by rw [← h1.flow]; exact blk hb, by rw [← h1.ska]; simpa using ha, hk⟩, h1⟩
        · exact hm .rollHere h
      · exact hm .pure h
    · exact hm .modify h
  cases f with
  | directive =>
    rcases bind_err h with h | ⟨_, _, -, h⟩
    · obtain ⟨h, rfl⟩ := sub_err h
      exact ⟨⟨e, hne, h⟩, .refl _⟩
    · exact hm (OnlyMissing.modify.bind fun _ => OnlyMissing.removeKey.bind fun _ => OnlyMissing.modify.bind fun _ => OnlyMissing.get.bind fun _ => OnlyMissing.commit.bind fun _ => .push) h
  | marker b =>
    exact hm (OnlyMissing.modify.bind fun _ => OnlyMissing.removeKey.bind fun _ => OnlyMissing.modify.bind fun _ => OnlyMissing.advance.bind fun _ => .push) h
  | flowStart b =>
    exact hm (OnlyMissing.modify.bind fun _ => OnlyMissing.advance.bind fun _ => OnlyMissing.push.bind fun _ => OnlyMissing.saveKey.bind fun _ => .modify) h
  | flowEnd b =>
    rcases bind_err h with h | ⟨_, s1, h1, h⟩
    · exact hm .removeKey h
    rw [bind_run (m := Scan.get) (a := s1) (s1 := s1) rfl] at h
    have hs1 : s1 = { s with sc := { s.sc with key := none } } := by
      unfold Scan.removeSavedKey Scan.takeKey at h1
      simp only [bind, SO.bind, Scan.get, SO.get, Scan.upd, SO.modify, pure, SO.pure] at h1
      cases hk : s.sc.key with
      | none => rw [hk] at h1; exact (Prod.mk.inj h1).2.symm
      | some k =>
        rw [hk] at h1
        simp only at h1
        split at h1
        · simp [SO.fail] at h1
        · exact (Prod.mk.inj h1).2.symm
    rcases bind_err h with h | ⟨_, _, -, h⟩
    · simp only [SO.lift, Prod.mk.injEq] at h
      obtain ⟨hd, rfl⟩ := h
      subst hs1
      refine ⟨?_, ⟨rfl, rfl, rfl, rfl, rfl, .inr rfl⟩⟩
      unfold Context.flowDecrement at hd
      split at hd
      · rename_i h0; exact h0
      · cases hd
    · exact hm (OnlyMissing.modify.bind fun _ => OnlyMissing.advance.bind fun _ => .push) h
  | flowEntry =>
    exact hm (OnlyMissing.removeKey.bind fun _ => OnlyMissing.modify.bind fun _ => OnlyMissing.advance.bind fun _ => .push) h
  | blockEntry =>
    rcases bind_err h with h | ⟨_, _, -, h⟩
    · unfold Scan.blockEntryCheck at h
      rw [bind_run (m := Scan.get) (a := s) (s1 := s) rfl] at h
      split at h
      · exact hm .rollHere h
      · rename_i hn
        simp only [SO.fail, Prod.mk.injEq] at h
        obtain ⟨-, rfl⟩ := h
        refine ⟨fun ⟨h1, h2⟩ => hn ?_, .refl _⟩
        simp [Context.isBlock, h1, h2]
    · exact hm (OnlyMissing.modify.bind fun _ => OnlyMissing.removeKey.bind fun _ => OnlyMissing.modify.bind fun _ => OnlyMissing.advance.bind fun _ => .push) h
  | explicitKey =>
    change Scan.fetchExplicitKey s = _ at h
    unfold Scan.fetchExplicitKey at h
    rw [bind_run (m := Scan.get) (a := s) (s1 := s) rfl] at h
    rcases bind_err h with h | ⟨_, _, -, h⟩
    · unfold Scan.explicitKeyCheck at h
      rw [bind_run (m := Scan.get) (a := s) (s1 := s) rfl] at h
      split at h
      · rename_i hb
        split at h
        · rename_i ha
          simp only [SO.fail, Prod.mk.injEq] at h
          obtain ⟨-, rfl⟩ := h
          exact ⟨⟨blk hb, by simpa using ha⟩, .refl _⟩
        · exact hm .rollHere h
      · exact hm .pure h
    · exact hm (OnlyMissing.removeKey.bind fun _ => OnlyMissing.modify.bind fun _ => OnlyMissing.advance.bind fun _ => .push) h
  | value =>
    change Scan.fetchValue s = _ at h
    unfold Scan.fetchValue at h
    rcases bind_err h with h | ⟨k, s1, h1, h⟩
    · exact hm .takeKey h
    obtain ⟨rfl, rfl⟩ := takeKey_ok h1
    clear h1
    have h1 : Same s { s with sc := { s.sc with key := none } } := ⟨rfl, rfl, rfl, rfl, rfl, .inr rfl⟩
    rcases bind_err h with h | ⟨_, _, -, h⟩
    · cases hk : s.sc.key with
      | some k =>
        rw [hk] at h
        unfold Scan.valueKey at h
        simp only at h
        split at h
        · exact hm .valueSaved h
        · rename_i ha
          have := bare h1 (fun k' hk' => by rw [hk] at hk'; cases hk'; simpa using ha) h rfl
          rwa [hk] at this
      | none =>
        rw [hk] at h
        have := bare h1 (fun k' hk' => by rw [hk] at hk'; cases hk') h rfl
        rwa [hk] at this
    · exact hm (OnlyMissing.advance.bind fun _ => .push) h
  | anchor =>
    change Scan.fetchAnchor opts s = _ at h
    unfold Scan.fetchAnchor at h
    rw [bind_run (m := Scan.get) (a := s) (s1 := s) rfl] at h
    rcases bind_err h with h | ⟨_, _, -, h⟩
    · obtain ⟨h, rfl⟩ := sub_err h
      exact ⟨⟨e, hne, h⟩, .refl _⟩
    · exact hm .finish h
  | tag =>
    rcases bind_err h with h | ⟨_, _, -, h⟩
    · obtain ⟨h, rfl⟩ := sub_err h
      exact ⟨⟨e, hne, h⟩, .refl _⟩
    · exact hm .finish h
  | quoted =>
    change Scan.fetchFlowScalar opts s = _ at h
    unfold Scan.fetchFlowScalar at h
    rw [bind_run (m := Scan.get) (a := s) (s1 := s) rfl] at h
    rcases bind_err h with h | ⟨_, _, -, h⟩
    · obtain ⟨h, rfl⟩ := sub_err h
      exact ⟨⟨e, hne, h⟩, .refl _⟩
    · exact hm .finish h
  | block b => exact absurd rfl (hbl b)
  | plain => exact absurd rfl hpl
  | unknown =>
    simp only [Scan.run, SO.fail, Prod.mk.injEq] at h
    obtain ⟨-, rfl⟩ := h
    exact ⟨trivial, .refl _⟩

theorem plain_good {x : Context} {n : Nat} {s : Str} (h : Scan.dispatch x n s = .plain) : plainBadStart x.isBlock s = false := by
  have hd := dispatch_says x n s
  rw [h] at hd
  obtain ⟨b, t, rfl, h1, h2, h3, h4, h5⟩ := hd
  unfold plainBadStart
  cases hbl : x.isBlock with
  | true => rfl
  | false =>
    have hfl : x.isFlow = true := by rw [flow_bne]; unfold Context.isBlock at hbl; simpa [bne] using hbl
    simp only [Bool.not_false, Bool.true_and, startsWith, List.drop_succ_cons, List.drop_zero]
    by_cases hq : b = b! '?' ∨ b = b! ':'
    · rw [hfl] at h5; exact absurd (h5 hq).1 (by simp)
    · by_cases hm : b = b! '-'
      · have hff := (h4 hm).2 hfl
        cases hfi : flowIndicator t with
        | false => simp
        | true =>
          refine absurd ?_ hff
          unfold flowIndicator at hfi
          simp only [Bool.or_eq_true, startsWith_iff] at hfi
          rcases hfi with (((⟨u, rfl⟩ | ⟨u, rfl⟩) | ⟨u, rfl⟩) | ⟨u, rfl⟩) | ⟨u, rfl⟩ <;> exact ⟨_, _, rfl, by decide⟩
      · have := not_or.1 hq
        simp [this.1, this.2, hm]

theorem Refused.mono {flow flow' : Nat} {ska ska' : Bool} {key key' : Option KeySave} {buf : Str} {f : Scan.Fetch} (h : Refused opts flow ska key buf f)
    (hf : flow' = flow) (hs : ska' = ska) (hk : ∀ k', key' = some k' → k'.possible.allowed = true → ∃ k, key = some k ∧ k.possible.allowed = true) : Refused opts flow' ska' key' buf f := by
  subst hf hs
  cases f <;> try exact h
  obtain ⟨h1, h2, h3⟩ := h
  refine ⟨h1, h2, fun k' hk' => ?_⟩
  cases ha : k'.possible.allowed with
  | false => rfl
  | true =>
    obtain ⟨k, e1, e2⟩ := hk k' hk' ha
    rw [h3 k e1] at e2
    cases e2

/-- A refusal comes again. -/
theorem run_again {s : SS} {f : Scan.Fetch} (h : Refused opts s.sc.context.flow s.sc.simpleKeyAllowed s.sc.key s.buf f) :
    ∃ e s', Scan.run opts f s = (.err e, s') ∧ ¬ e = .Extend ∧ Same s s' ∧ s'.out = s.out := by
  have sub' : ∀ {α β : Type} {g : Cur → Out ScanError α} {k : α → Scan β} {e : ScanError}, g ⟨s.buf, {}⟩ = .err e → (Scan.sub {} g >>= k) s = (.err e, s) := by
    intro α β g k e hg
    refine bind_run_err ?_
    unfold Scan.sub
    rw [bind_run (m := Scan.get) (a := s) (s1 := s) rfl]
    simp only [SO.lift, hg]
  cases f with
  | directive => obtain ⟨e, he, h⟩ := h; exact ⟨e, s, sub' h, he, .refl _, rfl⟩
  | tag => obtain ⟨e, he, h⟩ := h; exact ⟨e, s, sub' h, he, .refl _, rfl⟩
  | anchor => obtain ⟨e, he, h⟩ := h; exact ⟨e, s, (bind_run (m := Scan.get) (a := s) (s1 := s) rfl).trans (sub' h), he, .refl _, rfl⟩
  | quoted => obtain ⟨e, he, h⟩ := h; exact ⟨e, s, (bind_run (m := Scan.get) (a := s) (s1 := s) rfl).trans (sub' h), he, .refl _, rfl⟩
  | unknown => exact ⟨_, s, rfl, nofun, .refl _, rfl⟩
  | blockEntry =>
    refine ⟨.InvalidBlockEntry, s, bind_run_err ?_, nofun, .refl _, rfl⟩
    unfold Scan.blockEntryCheck
    rw [bind_run (m := Scan.get) (a := s) (s1 := s) rfl, if_neg]
    · rfl
    · intro hc
      exact h (by simpa [Context.isBlock] using hc)
  | explicitKey =>
    refine ⟨.InvalidKey, s, (bind_run (m := Scan.get) (a := s) (s1 := s) rfl).trans (bind_run_err ?_), nofun, .refl _, rfl⟩
    unfold Scan.explicitKeyCheck
    rw [bind_run (m := Scan.get) (a := s) (s1 := s) rfl, if_pos (by simp [Context.isBlock, h.1]), if_pos (by simp [h.2])]
    rfl
  | value =>
    obtain ⟨h1, h2, h3⟩ := h
    let s1 : SS := { s with sc := { s.sc with key := none } }
    have hb : Scan.valueBare s1 = (.err .InvalidValue, s1) := by
      unfold Scan.valueBare
      rw [bind_run (m := Scan.get) (a := s1) (s1 := s1) rfl]
      refine bind_run_err ?_
      unfold Scan.valueCheck
      rw [bind_run (m := Scan.get) (a := s1) (s1 := s1) rfl, if_pos (by simp [s1, Context.isBlock, h1]), if_pos (by simp [s1, h2])]
      rfl
    refine ⟨.InvalidValue, s1, (bind_run (m := Scan.takeKey) (a := s.sc.key) (s1 := s1) rfl).trans (bind_run_err ?_), nofun, ⟨rfl, rfl, rfl, rfl, rfl, .inr rfl⟩, rfl⟩
    cases hk : s.sc.key with
    | none => exact hb
    | some k =>
      unfold Scan.valueKey
      simp only [h3 k hk, Bool.false_eq_true, ↓reduceIte]
      exact hb
  | flowEnd b =>
    let s1 : SS := { s with sc := { s.sc with key := none } }
    have hsame : Same s s1 := ⟨rfl, rfl, rfl, rfl, rfl, .inr rfl⟩
    have hr : Scan.removeSavedKey s = (.ok (), s1) ∨ Scan.removeSavedKey s = (.err .MissingValue, s1) := by
      unfold Scan.removeSavedKey
      rw [bind_run (m := Scan.takeKey) (a := s.sc.key) (s1 := s1) rfl]
      cases s.sc.key with
      | none => exact .inl rfl
      | some k =>
        simp only
        split
        · exact .inr rfl
        · exact .inl rfl
    rcases hr with hr | hr
    · refine ⟨.IntOverflow, s1, (bind_run hr).trans ?_, nofun, hsame, rfl⟩
      rw [bind_run (m := Scan.get) (a := s1) (s1 := s1) rfl]
      refine bind_run_err ?_
      have hf : s1.sc.context.flow = 0 := h
      simp only [SO.lift, Context.flowDecrement, hf]
    · exact ⟨.MissingValue, s1, bind_run_err hr, nofun, hsame, rfl⟩
  | marker b => exact h.elim
  | flowStart b => exact h.elim
  | flowEntry => exact h.elim
  | block b => exact h.elim
  | plain => exact h.elim

theorem add_zero_again {m n : MStats} : (((m.add n).add n).column == 0) = ((m.add n).column == 0) := by
  unfold MStats.add MStats.update
  simp only
  by_cases h : n.lines = 0
  · simp only [h, ↓reduceIte]
    rw [Bool.eq_iff_iff]; simp only [beq_iff_eq]; omega
  · simp only [h, ↓reduceIte]

theorem Stale.later {m n : MStats} {k : KeySave} (h : Stale m k) : Stale (m.add n) k := by
  refine ⟨h.1, ?_⟩
  unfold MStats.add MStats.update
  simp only
  rcases h.2 with h | h
  · exact .inl (by omega)
  · exact .inr (by omega)

theorem KeyLess.allowed {k k' : Option KeySave} (h : KeyLess k k') (k0 : KeySave) (h1 : k' = some k0) (h2 : k0.possible.allowed = true) :
    ∃ k1, k = some k1 ∧ k1.possible.allowed = true := by
  rcases h with h | ⟨k1, -, h⟩
  · exact ⟨k0, by rw [← h, h1], h2⟩
  · rw [h] at h1
    cases h1
    cases h2

theorem bad_after {s s2 s' : SS} {c : Cur} (hs : s.sc.state = .Stream) (he : eatWs opts true ⟨s.buf, {}⟩ = .ok c)
    (hb : isBoundary s.buf (s.buf.length - c.buf.length) = true) (hn : c.buf ≠ []) (h2 : Ready s c s2)
    (hr : Refused opts s2.sc.context.flow s2.sc.simpleKeyAllowed s2.sc.key s2.buf (Scan.dispatch s2.sc.context s2.sc.stats.column s2.buf))
    (hm : Same s2 s') : Bad opts s.buf s'.sc := by
  refine .fetch (by rw [hm.state, h2.state, hs]) he hb hn ?_
  rw [h2.buf] at hr
  rw [dispatch_congr (x' := s2.sc.context) (n' := s2.sc.stats.column) hm.flow (by rw [hm.stats, h2.stats]; exact add_zero_again)]
  refine hr.mono hm.flow ?_ ?_
  · rw [hm.ska, h2.ska]
    split <;> rfl
  · intro k' hk' ha
    rcases hm.key with h | h
    · exact ⟨k', by rw [← h, hk'], ha⟩
    · rw [h] at hk'; cases hk'

/-- Plain scalars fail with other errors only. -/
theorem run_plain {s s' : SS} {e : ScanError} (hf : Scan.dispatch s.sc.context s.sc.stats.column s.buf = .plain)
    (h : Scan.run opts (Scan.dispatch s.sc.context s.sc.stats.column s.buf) s = (.err e, s')) : Passing e := by
  have hg := plain_good hf
  rw [hf] at h
  change Scan.fetchPlainScalar opts s = _ at h
  unfold Scan.fetchPlainScalar at h
  rw [bind_run (m := Scan.get) (a := s) (s1 := s) rfl] at h
  rcases bind_err h with h | ⟨_, _, -, h⟩
  · obtain ⟨h, -⟩ := sub_err h
    exact .inr (((scanPlain_faults (F := fun _ => False) hg).2 e h).resolve_right id).1
  · exact .inl (((OnlyMissing.saveKey.bind fun _ => OnlyMissing.modify.bind fun _ => OnlyMissing.commit.bind fun _ => OnlyMissing.modify)) _ _ _ h)

/-- The scanner before the contents of a block scalar. -/
def opened (s : SS) : SS := { s with sc := { s.sc with key := none, simpleKeyAllowed := true } }

theorem remove_cases (s : SS) : Scan.removeSavedKey s = (.ok (), { s with sc := { s.sc with key := none } }) ∨
    Scan.removeSavedKey s = (.err .MissingValue, { s with sc := { s.sc with key := none } }) := by
  unfold Scan.removeSavedKey
  rw [bind_run (m := Scan.takeKey) (a := s.sc.key) (s1 := { s with sc := { s.sc with key := none } }) rfl]
  cases s.sc.key with
  | none => exact .inl rfl
  | some k =>
    simp only
    split
    · exact .inr rfl
    · exact .inl rfl

/-- What a block scalar fails of. -/
theorem run_block {s s' : SS} {e : ScanError} {fold : Bool} (hp : ¬ Passing e) (h : Scan.run opts (.block fold) s = (.err e, s')) :
    s' = opened s ∧ ∀ m, scanBlock opts (s.sc.context.level.getD 0) fold ⟨s.buf, m⟩ = .err e := by
  change Scan.fetchBlockScalar opts fold s = _ at h
  unfold Scan.fetchBlockScalar at h
  rcases remove_cases s with h1 | h1
  · rw [bind_run h1, bind_run (m := Scan.upd _) (a := ()) (s1 := opened s) rfl, bind_run (m := Scan.get) (a := opened s) (s1 := opened s) rfl] at h
    rcases bind_err h with h | ⟨_, s3, h3, h⟩
    · obtain ⟨h, h'⟩ := sub_err h
      exact ⟨h', fun m => Shift.scanBlock_err h m⟩
    · exact absurd (.inl ((OnlyMissing.commit.bind fun _ => OnlyMissing.modify) _ _ _ h)) hp
  · rw [bind_run_err h1] at h
    simp only [Prod.mk.injEq, Out.err.injEq] at h
    exact absurd (.inl h.1.symm) hp

/-- It fails again. -/
theorem run_block_again {s : SS} {e : ScanError} {fold : Bool} (he : ¬ e = .Extend)
    (h : ∀ m, scanBlock opts (s.sc.context.level.getD 0) fold ⟨s.buf, m⟩ = .err e) :
    ∃ e' s', Scan.run opts (.block fold) s = (.err e', s') ∧ ¬ e' = .Extend ∧ s'.out = s.out ∧ s'.sc.state = s.sc.state ∧ s'.sc.stats = s.sc.stats ∧
      s'.sc.context = s.sc.context ∧ s'.sc.offset = s.sc.offset := by
  rcases remove_cases s with h1 | h1
  · refine ⟨e, opened s, ?_, he, rfl, rfl, rfl, rfl, rfl⟩
    change Scan.fetchBlockScalar opts fold s = _
    unfold Scan.fetchBlockScalar
    rw [bind_run h1, bind_run (m := Scan.upd _) (a := ()) (s1 := opened s) rfl, bind_run (m := Scan.get) (a := opened s) (s1 := opened s) rfl]
    refine bind_run_err ?_
    unfold Scan.sub
    rw [bind_run (m := Scan.get) (a := opened s) (s1 := opened s) rfl]
    simp only [SO.lift]
    have := h s.sc.stats
    unfold opened
    dsimp only at this ⊢
    rw [this]
  · exact ⟨.MissingValue, _, bind_run_err h1, nofun, rfl, rfl, rfl, rfl, rfl⟩

/-- The indentation before a token. -/
theorem prepare_even {s s2 : SS} {c : Cur} (h : eatWs opts true ⟨s.buf, {}⟩ = .ok c) (hb : isBoundary s.buf (s.buf.length - c.buf.length) = true)
    (hp : Scan.prepare opts s = (.ok (), s2)) (hz : Chunk.ZeroedIn s.sc.context) (hf : s.sc.context.isBlock = true) :
    Chunk.ZeroedIn s2.sc.context ∧ Even (s.sc.stats.add c.stats).column s2.sc.context ∧
    (Even (s.sc.stats.add c.stats).column s.sc.context → s2.sc.context.level = s.sc.context.level) := by
  have hz2 := Chunk.Keeps.prepare (o := opts) s hz
  rw [hp] at hz2
  refine ⟨hz2, ?_⟩
  unfold Scan.prepare at hp
  rw [bind_run (eat_run h hb)] at hp
  rcases expire_cases { s with buf := c.buf, sc := moved s.sc c } with ⟨k, -, -, h1⟩ | ⟨k', h1, -⟩
  · rw [bind_run_err h1] at hp
    cases hp
  rw [bind_run h1] at hp
  generalize hs1 : ({ { s with buf := c.buf, sc := moved s.sc c } with sc := { (moved s.sc c) with key := k' } } : SS) = s1 at hp
  rw [bind_run (m := Scan.get) (a := s1) (s1 := s1) rfl, bind_run (m := Scan.unrollIndent (some s1.sc.stats.column)) (a := ()) (s1 := (Scan.unrollIndent (some s1.sc.stats.column) s1).2) rfl] at hp
  have hx : s1.sc.context = s.sc.context := by subst hs1; rfl
  have hst : s1.sc.stats = s.sc.stats.add c.stats := by subst hs1; rfl
  rw [hst] at hp
  generalize (s.sc.stats.add c.stats).column = n at hp ⊢
  generalize hs3 : (Scan.unrollIndent (some n) s1).2 = s3 at hp
  have h3 : Chunk.ZeroedIn s3.sc.context := by
    have := Chunk.Keeps.unrollIndent (c := some n) s1 (by rw [hx]; exact hz)
    rwa [hs3] at this
  have h4 : s3.sc.context = { s.sc.context with indents := (popLoop (some n) s.sc.context.indents s.sc.context.indent).1, indent := (popLoop (some n) s.sc.context.indents s.sc.context.indent).2.1 } := by
    subst hs3
    unfold Scan.unrollIndent SO.modify Context.indentDecrement
    simp only [hx, hf, ↓reduceIte]
  have h5 : Even n s3.sc.context := by
    rw [h4]
    refine (Chunk.popLoop_stops (some n) s.sc.context.indents s.sc.context.indent).imp id fun h => ?_
    simpa [deeper] using h
  have h6 : Even n s.sc.context → s3.sc.context.level = s.sc.context.level := by
    intro h
    rw [Chunk.popLoop_done (h.imp id fun h => by simpa [deeper] using h)] at h4
    rw [h4]
  have h7 : Even n s2.sc.context ∧ s2.sc.context.level = s3.sc.context.level := by
    have hp : s2 = (Scan.popZeroIndent s3).2 := by rw [show Scan.popZeroIndent s3 = (.ok (), s2) from hp]
    cases hi : s3.sc.context.indents with
    | nil => rw [hp, Chunk.popZeroIndent_nil hi]; exact ⟨h5, rfl⟩
    | cons e es =>
      by_cases hd : Chunk.ZeroDue e s3
      · rw [hp, Chunk.popZeroIndent_pos hi hd]
        unfold Chunk.ZeroedIn at h3
        rw [hi] at h3
        obtain ⟨h8, d, ds, h9, -⟩ := h3.1 hd.2.1
        refine ⟨.inr ?_, ?_⟩
        · rcases h5 with h5 | h5
          · rw [hi] at h5; cases h5
          · show e.indent ≤ n
            rw [h8]; exact h5
        · unfold Context.level
          show (if s3.sc.context.started = true then some e.indent else none) = _
          rw [h8]
      · rw [hp, Chunk.popZeroIndent_neg hi hd]; exact ⟨h5, rfl⟩
  exact ⟨h7.1, fun h => by rw [h7.2, h6 h]⟩

theorem block_context {x : Context} {n : Nat} {s : Str} {fold : Bool} (h : Scan.dispatch x n s = .block fold) : x.isBlock = true := by
  have hd := dispatch_says x n s
  rw [h] at hd
  have := hd.1
  unfold Context.isFlow at this
  unfold Context.isBlock
  simpa using this

theorem column_again {m n : MStats} : (m.add n).column ≤ ((m.add n).add n).column := by
  unfold MStats.add MStats.update
  simp only
  by_cases h : n.lines = 0
  · simp only [h, ↓reduceIte]
    omega
  · simp only [h, ↓reduceIte]
    omega

theorem Even.mono {n n' : Nat} {x : Context} (h : Even n x) (hn : n ≤ n') : Even n' x := h.imp id fun h => Nat.le_trans h hn

/-- A block scalar that was refused. -/
theorem bad_block {s s2 : SS} {sc : Scanner} {c : Cur} {fold : Bool} {e : ScanError} (hs : s.sc.state = .Stream) (h : eatWs opts true ⟨s.buf, {}⟩ = .ok c)
    (hb : isBoundary s.buf (s.buf.length - c.buf.length) = true) (hn : c.buf ≠ []) (h2 : Ready s c s2)
    (hd : Scan.dispatch s2.sc.context s2.sc.stats.column s2.buf = .block fold) (hz : Chunk.ZeroedIn s2.sc.context)
    (hl : Even (s.sc.stats.add c.stats).column s2.sc.context) (he : ¬ e = .Extend)
    (hr : ∀ m, scanBlock opts (s2.sc.context.level.getD 0) fold ⟨s2.buf, m⟩ = .err e)
    (h3 : sc.state = s2.sc.state) (h4 : sc.stats = s2.sc.stats) (h5 : sc.context = s2.sc.context) : Bad opts s.buf sc := by
  refine .block (by rw [h3, h2.state, hs]) h hb hn ?_ (by rw [h5]; exact hz) ?_ he (by rw [h5, ← h2.buf]; exact hr)
  · rw [dispatch_congr (x' := s2.sc.context) (n' := s2.sc.stats.column) (by rw [h5]) (by rw [h4, h2.stats]; exact add_zero_again), ← h2.buf]
    exact hd
  · rw [h5, h4, h2.stats]
    exact hl.mono column_again

/-- The first error that is final. -/
theorem step_first {s s' : SS} {e : ScanError} (hs : s.sc.state = .Stream) (hz : Chunk.ZeroedIn s.sc.context) (hp : ¬ Passing e) (h : Scan.scanNextToken opts s = (.err e, s')) :
    Bad opts s.buf s'.sc ∧ s'.sc.offset = s.sc.offset := by
  have hne : ¬ e = .Extend := fun h => hp (.inr h)
  unfold Scan.scanNextToken at h
  rw [bind_run (m := Scan.get) (a := s) (s1 := s) rfl, if_neg (by simp [hs])] at h
  cases hc : eatWs opts true ⟨s.buf, {}⟩ with
  | err e0 =>
    have h0 : Scan.eatWhitespace opts s = (.err e0, s) := by
      unfold Scan.eatWhitespace Scan.sub
      simp [bind, SO.bind, Scan.get, SO.get, SO.lift, hc]
    have h1 : Scan.prepare opts s = (.err e0, s) := bind_run_err h0
    rw [bind_run_err h1] at h
    simp only [Prod.mk.injEq, Out.err.injEq] at h
    obtain ⟨rfl, rfl⟩ := h
    exact ⟨.ws hs hne hc, rfl⟩
  | panic =>
    unfold Scan.prepare Scan.eatWhitespace Scan.sub at h
    simp [bind, SO.bind, Scan.get, SO.get, SO.lift, hc] at h
  | diverge =>
    unfold Scan.prepare Scan.eatWhitespace Scan.sub at h
    simp [bind, SO.bind, Scan.get, SO.get, SO.lift, hc] at h
  | ok c =>
    cases hb : isBoundary s.buf (s.buf.length - c.buf.length) with
    | false =>
      unfold Scan.prepare Scan.eatWhitespace Scan.sub at h
      simp [bind, SO.bind, Scan.get, SO.get, SO.lift, hc, Scan.upd, SO.modify, Scan.commit, hb] at h
    | true =>
      rcases prepare_cases hc hb with ⟨k, -, -, h1⟩ | ⟨s2, h1, h2⟩
      · rw [bind_run_err h1] at h
        simp only [Prod.mk.injEq, Out.err.injEq] at h
        exact absurd (.inl h.1.symm) hp
      · rw [bind_run h1] at h
        unfold Scan.fetchNext at h
        rw [bind_run (m := Scan.get) (a := s2) (s1 := s2) rfl] at h
        split at h
        · refine absurd (.inl (?_ : e = .MissingValue)) hp
          refine OnlyMissing.bind (m := Scan.get) .get (fun s => ?_) _ _ _ h
          exact .ite .pure (.ite (OnlyMissing.modify.bind fun _ => OnlyMissing.removeKey.bind fun _ => OnlyMissing.modify.bind fun _ => .push) .pure)
        · rename_i hcond
          rcases bind_err h with h | ⟨_, s3, h3, h⟩
          · simp only [SO.lift, Prod.mk.injEq] at h
            exact absurd (.inr (((cache_faults (opts := opts) (F := fun _ => False) 4 s2.buf).2 e h.1).resolve_right id).1) hp
          · simp only [SO.lift, Prod.mk.injEq] at h3
            obtain ⟨-, rfl⟩ := h3
            have hn : c.buf ≠ [] := by
              intro h0
              exact hcond (by rw [h2.buf, h0]; rfl)
            by_cases hbl : ∃ fold, Scan.dispatch s2.sc.context s2.sc.stats.column s2.buf = .block fold
            · obtain ⟨fold, hd⟩ := hbl
              have hfl : s.sc.context.isBlock = true := by
                have := block_context hd
                unfold Context.isBlock at this ⊢
                rwa [h2.flow] at this
              obtain ⟨k1, k2, -⟩ := prepare_even hc hb h1 hz hfl
              rw [hd] at h
              obtain ⟨rfl, hr⟩ := run_block hp h
              exact ⟨bad_block hs hc hb hn h2 hd k1 k2 hne hr rfl rfl rfl, h2.offset⟩
            · obtain ⟨hr, hm⟩ := run_refused hp (fun hf => hp (run_plain hf h)) (fun b hf => hbl ⟨b, hf⟩) h
              exact ⟨bad_after hs hc hb hn h2 hr hm, by rw [hm.offset, h2.offset]⟩

/-- Another scan fails too, and pushes nothing but ends of block collections. -/
theorem step_again (hx : opts.extendable = false) {s : SS} (h : Bad opts s.buf s.sc) :
    ∃ e s' l, Scan.scanNextToken opts s = (.err e, s') ∧ ¬ e = .Extend ∧ Bad opts s.buf s'.sc ∧ s'.sc.offset = s.sc.offset ∧
      s'.out = s.out ++ l ∧ ∀ t ∈ l, t.wrap = .Token .BlockEnd := by
  have go : s.sc.state = .Stream → ∀ x, (Scan.prepare opts >>= fun _ => Scan.fetchNext opts) s = x → Scan.scanNextToken opts s = x := by
    intro hs x hx
    unfold Scan.scanNextToken
    rw [bind_run (m := Scan.get) (a := s) (s1 := s) rfl, if_neg (by simp [hs])]
    exact hx
  have ad : ∀ {o s'}, Scan.prepare opts s = (o, s') → ∃ l, s'.out = s.out ++ l ∧ ∀ t ∈ l, t.wrap = .Token .BlockEnd := fun h =>
    (Adds.prepare (S := fun e => e.wrap = .Token .BlockEnd) (fun _ => rfl)).of_eq h
  cases h with
  | @ws e hs hne hc =>
    have h0 : Scan.eatWhitespace opts s = (.err e, s) := by
      unfold Scan.eatWhitespace Scan.sub
      simp only [bind, SO.bind, Scan.get, SO.get, SO.lift, hc]
    have h1 : Scan.prepare opts s = (.err e, s) := bind_run_err h0
    exact ⟨_, s, [], go hs _ (bind_run_err h1), hne, .ws hs hne hc, rfl, by simp, nofun⟩
  | @key c k0 hs hc hb hk hd =>
    rcases prepare_cases hc hb with ⟨k, -, -, h1⟩ | ⟨s2, h1, h2⟩
    · obtain ⟨l, hl, hl'⟩ := ad h1
      exact ⟨_, _, l, go hs _ (bind_run_err h1), nofun, .key hs hc hb hk hd.later, rfl, hl, hl'⟩
    · exfalso
      unfold Scan.prepare at h1
      rw [bind_run (eat_run hc hb), bind_run_err (expire_stale (s := { s with buf := c.buf, sc := moved s.sc c }) hk hd)] at h1
      simp at h1
  | @fetch c hs hc hb hn hr =>
    rcases prepare_cases hc hb with ⟨k, hk, hd, h1⟩ | ⟨s2, h1, h2⟩
    · obtain ⟨l, hl, hl'⟩ := ad h1
      exact ⟨_, _, l, go hs _ (bind_run_err h1), nofun, .key hs hc hb hk hd.later, rfl, hl, hl'⟩
    · obtain ⟨l, hl, hl'⟩ := ad h1
      have hr' : Refused opts s2.sc.context.flow s2.sc.simpleKeyAllowed s2.sc.key s2.buf (Scan.dispatch s2.sc.context s2.sc.stats.column s2.buf) := by
        rw [dispatch_congr (x' := s.sc.context) (n' := (s.sc.stats.add c.stats).column) h2.flow (by rw [h2.stats]), h2.buf]
        exact hr.mono h2.flow h2.ska h2.key.allowed
      obtain ⟨e, s', h3, he, hm, ho⟩ := run_again hr'
      refine ⟨e, s', l, go hs _ ?_, he, bad_after hs hc hb hn h2 hr' hm, by rw [hm.offset, h2.offset], by rw [ho, hl], hl'⟩
      rw [bind_run h1]
      unfold Scan.fetchNext
      rw [bind_run (m := Scan.get) (a := s2) (s1 := s2) rfl, if_neg (by simp [h2.buf, hn, h2.state, hs])]
      rw [bind_run (m := SO.lift (cache opts 4 s2.buf)) (a := ()) (s1 := s2) (by simp [SO.lift, hx])]
      exact h3
  | @block c fold e hs hc hb hn hd hz hl he hr =>
    rcases prepare_cases hc hb with ⟨k, hk, hd, h1⟩ | ⟨s2, h1, h2⟩
    · obtain ⟨l, hl, hl'⟩ := ad h1
      exact ⟨_, _, l, go hs _ (bind_run_err h1), nofun, .key hs hc hb hk hd.later, rfl, hl, hl'⟩
    · obtain ⟨l, ho, hl'⟩ := ad h1
      have hfl := block_context hd
      obtain ⟨k1, k2, k3⟩ := prepare_even hc hb h1 hz hfl
      have hr' : ∀ m, scanBlock opts (s2.sc.context.level.getD 0) fold ⟨s2.buf, m⟩ = .err e := by
        rw [k3 hl, h2.buf]
        exact hr
      have hd' : Scan.dispatch s2.sc.context s2.sc.stats.column s2.buf = .block fold := by
        rw [dispatch_congr (x' := s.sc.context) (n' := (s.sc.stats.add c.stats).column) h2.flow (by rw [h2.stats]), h2.buf]
        exact hd
      obtain ⟨e', s', h3, h4, h5, h6, h7, h8, h9⟩ := run_block_again he hr'
      refine ⟨e', s', l, go hs _ ?_, h4, bad_block hs hc hb hn h2 hd' k1 k2 he hr' h6 h7 h8, by rw [h9, h2.offset], by rw [h5, ho], hl'⟩
      rw [bind_run h1]
      unfold Scan.fetchNext
      rw [bind_run (m := Scan.get) (a := s2) (s1 := s2) rfl, if_neg (by simp [h2.buf, hn, h2.state, hs])]
      rw [bind_run (m := SO.lift (cache opts 4 s2.buf)) (a := ()) (s1 := s2) (by simp [SO.lift, hx]), hd']
      exact h3

end Yary.Final
