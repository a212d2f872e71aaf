import Verif.Proof.Scan.Plain
import Verif.Proof.Scan.Block
import Verif.Spec.Slices

/-! # One step of the scanner

The step is taken apart once: whatever property of the scanner's state survives each of the small
changes listed in `Closed` survives the step, whether it succeeds or fails. The step terminates,
reads a byte of the text unless it starts or ends the stream, and panics only if `P`. -/

namespace Yary

open Out (Sat)

/-- A condition on the result, next to the one that is known. -/
theorem Out.Sat.with {ε α : Type} {P : Prop} {x : Out ε α} {Q R : α → Prop} (h : Sat P x Q) (hR : ∀ a, x = .ok a → R a) :
    Sat P x fun a => Q a ∧ R a := by
  cases x with
  | ok a => exact ⟨h, hR a rfl⟩
  | err _ => exact h
  | panic => exact h
  | diverge => exact h

theorem slice_part {ε : Type} {s t : Str} {n : Nat} (h : (slice s 0 n : Out ε Str) = .ok t) : ∃ p q, s = p ++ (t ++ q) := by
  unfold slice at h
  split at h
  · simp only [Out.ok.injEq] at h
    subst h
    exact ⟨[], s.drop n, by simp⟩
  · cases h

theorem scanFlow_part {opts : SFlags} {single : Bool} {c : Cur} {r : MaybeToken × Cur} (h : scanFlow opts single c = .ok r) :
    Spec.PartOf c.buf r.1 := by
  unfold scanFlow at h
  split at h
  · obtain ⟨l, h1, h⟩ := Out.bind_eq_ok.1 h
    cases h
    unfold scanFlowLazy at h1
    obtain ⟨_, -, h1⟩ := Out.bind_eq_ok.1 h1
    obtain ⟨_, -, h1⟩ := Out.bind_eq_ok.1 h1
    obtain ⟨_, -, h1⟩ := Out.bind_eq_ok.1 h1
    obtain ⟨_, hs, h1⟩ := Out.bind_eq_ok.1 h1
    cases h1
    exact slice_part hs
  · obtain ⟨l, -, h⟩ := Out.bind_eq_ok.1 h
    cases h
    trivial

theorem scanPlain_part {opts : SFlags} {indent : Nat} {block : Bool} {c : Cur} {r : MaybeToken × Cur}
    (h : scanPlain opts indent block c = .ok r) : Spec.PartOf c.buf r.1 := by
  unfold scanPlain at h
  split at h
  · obtain ⟨l, h1, h⟩ := Out.bind_eq_ok.1 h
    cases h
    unfold scanPlainLazy at h1
    obtain ⟨_, -, h1⟩ := Out.bind_eq_ok.1 h1
    obtain ⟨_, -, h1⟩ := Out.bind_eq_ok.1 h1
    obtain ⟨_, -, h1⟩ := Out.bind_eq_ok.1 h1
    obtain ⟨_, hs, h1⟩ := Out.bind_eq_ok.1 h1
    obtain ⟨_, -, h1⟩ := Out.bind_eq_ok.1 h1
    cases h1
    exact slice_part hs
  · obtain ⟨l, -, h⟩ := Out.bind_eq_ok.1 h
    cases h
    trivial

theorem scanBlock_part {opts : SFlags} {base : Nat} {fold : Bool} {c : Cur} {r : MaybeToken × Cur}
    (h : scanBlock opts base fold c = .ok r) : Spec.PartOf c.buf r.1 := by
  unfold scanBlock at h
  split at h
  · obtain ⟨l, h1, h⟩ := Out.bind_eq_ok.1 h
    cases h
    unfold scanBlockLazy at h1
    obtain ⟨_, -, h1⟩ := Out.bind_eq_ok.1 h1
    obtain ⟨_, -, h1⟩ := Out.bind_eq_ok.1 h1
    obtain ⟨_, -, h1⟩ := Out.bind_eq_ok.1 h1
    obtain ⟨_, hs, h1⟩ := Out.bind_eq_ok.1 h1
    cases h1
    exact slice_part hs
  · obtain ⟨l, -, h⟩ := Out.bind_eq_ok.1 h
    cases h
    trivial

/-- `m` terminates from `s`, panics only if `P`, satisfies `Q` if it succeeds and `E` if it
fails. -/
def Holds {α : Type} (P : Prop) (m : Scan α) (s : SS) (Q : α → SS → Prop) (E : SS → Prop) : Prop :=
  match m s with
  | (.ok a, s') => Q a s'
  | (.err _, s') => E s'
  | (.panic, _) => P
  | (.diverge, _) => False

namespace Holds

variable {P : Prop} {α β : Type} {s : SS} {E : SS → Prop}

theorem bind_iff {x : Scan α} {f : α → Scan β} {Q : β → SS → Prop} :
    Holds P (x >>= f) s Q E ↔ Holds P x s (fun a s' => Holds P (f a) s' Q E) E := by
  simp only [Holds, bind, SO.bind]
  generalize x s = r
  obtain ⟨o, s'⟩ := r
  cases o <;> simp

theorem mono {x : Scan α} {Q R : α → SS → Prop} (h : Holds P x s Q E)
    (hm : ∀ a s', Q a s' → R a s') : Holds P x s R E := by
  simp only [Holds] at h ⊢
  generalize x s = r at h
  obtain ⟨o, s'⟩ := r
  cases o <;> simp_all

theorem bind {x : Scan α} {f : α → Scan β} {Q : α → SS → Prop} {R : β → SS → Prop}
    (h : Holds P x s Q E) (hi : ∀ a s', Q a s' → Holds P (f a) s' R E) :
    Holds P (x >>= f) s R E := bind_iff.2 (h.mono hi)

@[simp] theorem pure_iff {a : α} {Q : α → SS → Prop} :
    Holds P (pure a : Scan α) s Q E ↔ Q a s := Iff.rfl
@[simp] theorem fail_iff {e : ScanError} {Q : α → SS → Prop} :
    Holds P (SO.fail e : Scan α) s Q E ↔ E s := Iff.rfl
@[simp] theorem get_iff {Q : SS → SS → Prop} : Holds P Scan.get s Q E ↔ Q s s := Iff.rfl
@[simp] theorem upd_iff {f : Scanner → Scanner} {Q : Unit → SS → Prop} :
    Holds P (Scan.upd f) s Q E ↔ Q () { s with sc := f s.sc } := Iff.rfl
@[simp] theorem modify_iff {f : SS → SS} {Q : Unit → SS → Prop} :
    Holds P (SO.modify f : Scan Unit) s Q E ↔ Q () (f s) := Iff.rfl
@[simp] theorem enqueue_iff {t : MaybeToken} {r : Nat} {Q : Unit → SS → Prop} :
    Holds P (Scan.enqueue t r) s Q E ↔ Q () { s with out := s.out ++ [⟨t, r⟩] } := Iff.rfl
@[simp] theorem push_iff {t : Token} {Q : Unit → SS → Prop} :
    Holds P (Scan.push t) s Q E ↔
      Q () { s with out := s.out ++ [⟨.Token t, s.sc.stats.read⟩] } := Iff.rfl
@[simp] theorem takeKey_iff {Q : Option KeySave → SS → Prop} :
    Holds P Scan.takeKey s Q E ↔ Q s.sc.key { s with sc := { s.sc with key := none } } := Iff.rfl

theorem lift {x : Out ScanError α} {R : α → Prop} {Q : α → SS → Prop} (hx : Sat P x R) (hE : E s)
    (h : ∀ a, R a → Q a s) : Holds P (SO.lift x : Scan α) s Q E := by
  simp only [Holds, SO.lift]
  cases x with
  | ok a => exact h a hx
  | err e => exact hE
  | panic => exact hx
  | diverge => exact hx

theorem sub {stats : MStats} {f : Cur → Out ScanError α} {R : α → Prop} {Q : α → SS → Prop}
    (hx : Sat P (f ⟨s.buf, stats⟩) R) (hE : E s) (h : ∀ a, R a → Q a s) :
    Holds P (Scan.sub stats f) s Q E := lift hx hE h

theorem commit {buf : Str} {stats : MStats} {Q : Unit → SS → Prop} (hP : P ∨ Ascii s.buf)
    (h : isBoundary s.buf (s.buf.length - buf.length) = true →
      Q () { s with buf := buf, sc := { s.sc with stats := stats } }) :
    Holds P (Scan.commit buf stats) s Q E := by
  simp only [Holds, Scan.commit]
  by_cases hb : isBoundary s.buf (s.buf.length - buf.length) = true
  · simp only [hb, ↓reduceIte]
    exact h hb
  · simp only [hb, Bool.false_eq_true, ↓reduceIte]
    rcases hP with hP | hP
    · exact hP
    · exact absurd (hP.boundary (by omega)) hb

/-- Moving over bytes that begin no line break. -/
theorem advance {n : Nat} {Q : Unit → SS → Prop} (hP : P ∨ Ascii s.buf) (hn : n ≤ s.buf.length)
    (h : isBoundary s.buf n = true → Q () { s with buf := s.buf.drop n, sc := { s.sc with stats := s.sc.stats.update n 0 n } }) :
    Holds P (Scan.advance n) s Q E := by
  simp only [Holds, Scan.advance, Cur.adv]
  by_cases hb : isBoundary s.buf n = true
  · simp only [hb, ↓reduceIte]
    exact h hb
  · simp only [hb, Bool.false_eq_true, ↓reduceIte]
    rcases hP with hP | hP
    · exact hP
    · exact absurd (hP.boundary hn) hb

end Holds

/-- A token of a node: a tag, an anchor, an alias or a scalar. -/
def IsNode (t : MaybeToken) : Prop :=
  t.marker = .Tag ∨ t.marker = .Anchor ∨ t.marker = .Alias ∨ t.marker = .Scalar

/-- The end of an indicator: a token that changes no nesting. -/
def IsPlain (t : Token) : Prop := t = .BlockEntry ∨ t = .FlowEntry ∨ t = .Key ∨ t = .Value

/-- A token that ends all collections outside of flow collections. -/
def IsBoundary (t : Token) : Prop := t = .DocumentStart ∨ t = .DocumentEnd ∨ IsDirective t

/-- How the cursor may move between two tokens. -/
structure Hops (s : SS) (c : Cur) : Prop where
  moves : Moves ⟨s.buf, s.sc.stats⟩ c
  valid : validUtf8 c.buf = true
  exact : Reads ⟨s.buf, s.sc.stats⟩ c ∨ c.buf = [] ∨
    ((∃ t, s.buf = b! '!' :: b! '<' :: t) ∧ startsWith c.buf b! '>' = true)

/-- The state after moving the cursor. -/
def SS.move (s : SS) (c : Cur) : SS := { s with buf := c.buf, sc := { s.sc with stats := c.stats } }

/-- The state after pushing a token. -/
def SS.put (s : SS) (t : MaybeToken) (r : Nat) : SS := { s with out := s.out ++ [⟨t, r⟩] }

/-- The state with another saved key. -/
def SS.setKey (s : SS) (k : Option KeySave) : SS := { s with sc := { s.sc with key := k } }

/-- The state with other indentations. -/
def SS.setIndents (s : SS) (l : List IndentEntry) (i : Nat) : SS :=
  { s with sc := { s.sc with context := { s.sc.context with indents := l, indent := i } } }

/-- The state with another flow level. -/
def SS.setFlow (s : SS) (n : Nat) : SS :=
  { s with sc := { s.sc with context := { s.sc.context with flow := n } } }

/-- Properties of the state that survive every small change the scanner makes. -/
structure Closed (I : SS → Prop) : Prop where
  /-- the text is a text -/
  valid : ∀ {s}, I s → validUtf8 s.buf = true
  /-- whether a simple key may follow -/
  flags : ∀ {s} b, I s → I { s with sc := { s.sc with simpleKeyAllowed := b } }
  /-- the first token -/
  first : ∀ {s}, I s → s.sc.state = .Start →
    I ({ s with sc := { s.sc with state := .Stream } }.put (.Token (.StreamStart .UTF8)) s.sc.stats.read)
  /-- the saved key is forgotten -/
  noKey : ∀ {s}, I s → I (s.setKey none)
  /-- the saved key becomes impossible -/
  stale : ∀ {s k}, I s → s.sc.key = some k → I (s.setKey (some { k with possible := .No }))
  /-- a key is saved at the current position -/
  save : ∀ {s} r, I s → I (s.setKey (some (.new s.sc.stats r)))
  /-- text is skipped -/
  move : ∀ {s c}, I s → Hops s c → I (s.move c)
  /-- text is read and gives the token of a node; the statistics fail to grow only with a verbatim
  tag -/
  node : ∀ {s c t}, I s → Hops s c → (s.sc.stats.read < c.stats.read ∨ startsWith c.buf b! '>' = true) →
    IsNode t → Spec.PartOf s.buf t → I ((s.move c).put t c.stats.read)
  /-- an indicator -/
  plain : ∀ {s t}, I s → s.sc.key = none → IsPlain t → I (s.put (.Token t) s.sc.stats.read)
  /-- a document marker or a directive -/
  boundary : ∀ {s t}, I s → s.sc.key = none → IsBoundary t →
    (s.sc.context.flow = 0 → s.sc.context.indents = []) →
    (IsDirective t → ∃ s0, I s0 ∧ ∃ r, s0.buf = b! '%' :: r) → I (s.put (.Token t) s.sc.stats.read)
  /-- a block collection ends -/
  pop : ∀ {s e es} i, I s → s.sc.context.indents = e :: es →
    I ((s.setIndents es i).put (.Token .BlockEnd) s.sc.stats.read)
  /-- a block collection starts here -/
  roll : ∀ {s} e i (map : Bool), I s → s.sc.context.flow = 0 →
    I ({ s.setIndents (e :: s.sc.context.indents) i with
      sc := { (s.setIndents (e :: s.sc.context.indents) i).sc with
        context := { (s.setIndents (e :: s.sc.context.indents) i).sc.context with started := true } } }.put
      (.Token (if map then .BlockMappingStart else .BlockSequenceStart)) s.sc.stats.read)
  /-- the innermost indentation is changed -/
  touch : ∀ {s e es} e', I s → s.sc.context.indents = e :: es →
    I (s.setIndents (e' :: es) s.sc.context.indent)
  /-- a block mapping starts at the saved key -/
  rollKey : ∀ {s k} e i, I s → s.sc.key = some k → k.possible.allowed = true →
    s.sc.stats.lines ≤ k.stats.lines → s.sc.stats.read ≤ k.stats.read + 1024 →
    s.sc.context.flow = 0 →
    I ({ s.setIndents (e :: s.sc.context.indents) i with
      sc := { (s.setIndents (e :: s.sc.context.indents) i).sc with
        context := { (s.setIndents (e :: s.sc.context.indents) i).sc.context with started := true } } }.put
      (.Token .BlockMappingStart) k.stats.read)
  /-- the saved key turns out to be one -/
  useKey : ∀ {s k}, I s → s.sc.key = some k → k.possible.allowed = true →
    s.sc.stats.lines ≤ k.stats.lines → s.sc.stats.read ≤ k.stats.read + 1024 →
    I (s.put (.Token .Key) k.stats.read)
  /-- a flow collection starts -/
  flowStart : ∀ {s} (map : Bool), I s → I ((s.setFlow (s.sc.context.flow + 1)).put
    (.Token (if map then .FlowMappingStart else .FlowSequenceStart)) s.sc.stats.read)
  /-- a flow collection ends -/
  flowEnd : ∀ {s n} (map : Bool), I s → s.sc.key = none → s.sc.context.flow = n + 1 →
    I ((s.setFlow n).put (.Token (if map then .FlowMappingEnd else .FlowSequenceEnd)) s.sc.stats.read)

/-- Statistics counted from zero and added at the end are those counted all along. -/
theorem Reads.add {m : MStats} {a c : Cur} (h : Reads a c) :
    Reads ⟨a.buf, m.add a.stats⟩ ⟨c.buf, m.add c.stats⟩ := by
  induction h with
  | refl => exact .refl _
  | @byte b t m0 c' hb _ ih =>
    refine .byte hb ?_
    have : (m.add m0).update 1 0 1 = m.add (m0.update 1 0 1) := by
      simp only [MStats.add, MStats.update, ↓reduceIte, Nat.add_zero]
      congr 1
      split <;> omega
    rw [this]
    exact ih
  | @line c c' hb _ ih =>
    refine .line hb ?_
    have : (m.add c.stats).update (breakLen c.buf) 1 0 =
        m.add (c.stats.update (breakLen c.buf) 1 0) := by
      simp [MStats.add, MStats.update]
      omega
    rw [this]
    exact ih

theorem MStats.add_zero (m : MStats) : m.add {} = m := by
  simp [MStats.add, MStats.update]

theorem Moves.add {m : MStats} {buf : Str} {c : Cur} (h : Moves ⟨buf, {}⟩ c) :
    Moves ⟨buf, m⟩ ⟨c.buf, m.add c.stats⟩ := by
  obtain ⟨h1, h2, h3, h4⟩ := h
  refine ⟨h1, ?_, ?_, ?_⟩
  · simp [MStats.add, MStats.update]
  · simp [MStats.add, MStats.update]
  · simp [MStats.add, MStats.update] at h4 ⊢
    omega

theorem Reads.add0 {m : MStats} {buf : Str} {c : Cur} (h : Reads ⟨buf, {}⟩ c) :
    Reads ⟨buf, m⟩ ⟨c.buf, m.add c.stats⟩ := by
  have := h.add (m := m)
  rwa [MStats.add_zero] at this

theorem suffix_drop {s t : Str} (h : ∃ p, s = p ++ t) : t = s.drop (s.length - t.length) := by
  obtain ⟨p, rfl⟩ := h
  simp

/-- What stays the same when only the output, the indentations and the flags change. -/
structure Same (s s' : SS) : Prop where
  buf : s'.buf = s.buf
  state : s'.sc.state = s.sc.state
  stats : s'.sc.stats = s.sc.stats
  flow : s'.sc.context.flow = s.sc.context.flow

theorem Same.refl (s : SS) : Same s s := ⟨rfl, rfl, rfl, rfl⟩
theorem Same.trans {a b c : SS} (h : Same a b) (h' : Same b c) : Same a c :=
  ⟨h'.buf.trans h.buf, h'.state.trans h.state, h'.stats.trans h.stats, h'.flow.trans h.flow⟩

variable {P : Prop} {I : SS → Prop} {opts : SFlags}

namespace Closed

theorem popLoop (hC : Closed I) (column : Option Nat) {s : SS} (hI : I s) :
    ∀ l i, s.sc.context.indents = l → s.sc.context.indent = i →
    I { s with
      sc := { s.sc with context := { s.sc.context with
        indents := (Yary.popLoop column l i).1
        indent := (Yary.popLoop column l i).2.1 } }
      out := s.out ++ List.replicate (Yary.popLoop column l i).2.2 ⟨.Token .BlockEnd, s.sc.stats.read⟩ } := by
  intro l
  induction l generalizing s with
  | nil =>
    intro i h1 h2
    simp only [Yary.popLoop, List.replicate_zero, List.append_nil]
    rw [← h1, ← h2]
    exact hI
  | cons e es ih =>
    intro i h1 h2
    rw [Yary.popLoop]
    split
    · have h3 := ih (s := (s.setIndents es e.indent).put (.Token .BlockEnd) s.sc.stats.read)
        (hC.pop e.indent hI h1) e.indent rfl rfl
      simpa [SS.setIndents, SS.put, List.replicate_succ, List.append_assoc] using h3
    · simp only [List.replicate_zero, List.append_nil]
      rw [← h1, ← h2]
      exact hI

theorem popLoop_none : ∀ l i, (Yary.popLoop none l i).1 = []
  | [], _ => rfl
  | e :: es, i => by simp [Yary.popLoop, deeper, popLoop_none es]

theorem unroll (hC : Closed I) (column : Option Nat) {s : SS} (hI : I s) :
    Holds P (Scan.unrollIndent column) s (fun _ s' => I s' ∧ Same s s' ∧ s'.sc.key = s.sc.key ∧
      (column = none → s'.sc.context.flow = 0 → s'.sc.context.indents = [])) I := by
  unfold Scan.unrollIndent
  simp only [Holds.modify_iff, Context.indentDecrement, Context.isBlock]
  by_cases hf : (s.sc.context.flow == 0) = true
  · simp only [hf, ↓reduceIte]
    refine ⟨hC.popLoop column hI _ _ rfl rfl, ⟨rfl, rfl, rfl, rfl⟩, trivial, ?_⟩
    rintro rfl -
    exact popLoop_none _ _
  · simp only [hf, Bool.false_eq_true, ↓reduceIte]
    refine ⟨by simpa using hI, ⟨rfl, rfl, rfl, rfl⟩, trivial, ?_⟩
    intro _ h'
    exact absurd (by simpa using h') hf

theorem popZero (hC : Closed I) {s : SS} (hI : I s) :
    Holds P Scan.popZeroIndent s (fun _ s' => I s' ∧ Same s s' ∧ s'.sc.key = s.sc.key) I := by
  unfold Scan.popZeroIndent
  simp only [Holds.modify_iff]
  split
  · exact ⟨hI, .refl _, rfl⟩
  · rename_i e es h
    split
    · exact ⟨hC.pop e.indent hI h, ⟨rfl, rfl, rfl, rfl⟩, rfl⟩
    · exact ⟨hI, .refl _, rfl⟩

theorem removeKey (hC : Closed I) {s : SS} (hI : I s) :
    Holds P Scan.removeSavedKey s (fun _ s' => s' = s.setKey none ∧ I s') I := by
  have h0 : I (s.setKey none) := hC.noKey hI
  unfold Scan.removeSavedKey
  rw [Holds.bind_iff, Holds.takeKey_iff]
  cases hk : s.sc.key with
  | none => exact ⟨rfl, h0⟩
  | some k =>
    simp only
    split
    · exact h0
    · exact ⟨rfl, h0⟩

theorem saveKey (hC : Closed I) {s : SS} (hI : I s) :
    Holds P Scan.saveKey s (fun _ s' => I s' ∧ Same s s' ∧ s'.sc.context = s.sc.context ∧
      s'.out = s.out ∧ ∀ k, s'.sc.key = some k → s.sc.key = some k ∨ k.stats = s.sc.stats) I := by
  unfold Scan.saveKey
  rw [Holds.bind_iff, Holds.get_iff]
  simp only
  split
  · refine (hC.removeKey hI).bind ?_
    rintro _ s1 ⟨rfl, h1⟩
    rw [Holds.upd_iff]
    have := hC.save (s.sc.context.isBlock && s.sc.context.level == some s.sc.stats.column) h1
    refine ⟨this, ⟨rfl, rfl, rfl, rfl⟩, rfl, rfl, fun k hk => .inr ?_⟩
    simp only [SS.setKey, Option.some.injEq] at hk
    rw [← hk]; rfl
  · exact ⟨hI, .refl _, rfl, rfl, fun k hk => .inl hk⟩

theorem rollIndent (hC : Closed I) {s : SS} {line column : Nat} {map : Bool} (hI : I s) :
    Holds P (Scan.rollIndent s.sc.stats.read line column map) s (fun _ s' => I s' ∧ Same s s' ∧
      s'.sc.key = s.sc.key) I := by
  unfold Scan.rollIndent
  rw [Holds.bind_iff, Holds.get_iff]
  simp only [Context.isBlock, beq_iff_eq]
  split
  · rename_i hf
    split
    · rw [Holds.bind_iff, Holds.upd_iff, Holds.enqueue_iff]
      exact ⟨hC.roll (.new s.sc.context.indent line map) column map hI hf, ⟨rfl, rfl, rfl, rfl⟩, rfl⟩
    · split
      · rw [Holds.bind_iff, Holds.upd_iff, Holds.enqueue_iff]
        have h1 := hC.roll (.new s.sc.context.indent line map) column map hI hf
        have h2 := hC.touch { (IndentEntry.new s.sc.context.indent line map) with zeroIndented := true }
          h1 rfl
        exact ⟨h2, ⟨rfl, rfl, rfl, rfl⟩, rfl⟩
      · exact ⟨hI, .refl _, rfl⟩
  · exact ⟨hI, .refl _, rfl⟩

theorem rollHere (hC : Closed I) {s : SS} {map : Bool} (hI : I s) :
    Holds P (Scan.rollHere map) s (fun _ s' => I s' ∧ Same s s' ∧ s'.sc.key = s.sc.key) I := by
  unfold Scan.rollHere
  rw [Holds.bind_iff, Holds.get_iff]
  exact hC.rollIndent hI

end Closed

/-- What a successful step does to the text: something of it is read. -/
structure Went (I : SS → Prop) (s s' : SS) : Prop where
  inv : I s'
  lt : s'.buf.length < s.buf.length
  state : s'.sc.state = s.sc.state

/-- What a successful step that pushes the token of a node does: the token is at the position after
it, and the saved key, if there is one, was there before or is at the position before. Only a verbatim
tag may leave the position as it was, and then it leaves a `>`. -/
structure NodePut (s s' : SS) : Prop where
  out : ∃ tok, IsNode tok ∧ s'.out = s.out ++ [⟨tok, s'.sc.stats.read⟩]
  after : s.sc.stats.read < s'.sc.stats.read ∨ startsWith s'.buf b! '>' = true
  key : ∀ k, s'.sc.key = some k → s.sc.key = some k ∨ k.stats = s.sc.stats
  reads : Reads ⟨s.buf, s.sc.stats⟩ ⟨s'.buf, s'.sc.stats⟩ ∨ s'.buf = [] ∨ startsWith s'.buf b! '>' = true

theorem Same.went {s s1 s' : SS} (h : Same s s1) (h' : Went I s1 s') : Went I s s' :=
  ⟨h'.inv, by rw [← h.buf]; exact h'.lt, h'.state.trans h.state⟩

/-- One byte that begins no line break. -/
theorem hops_one {s : SS} {b : Byte} {t : Str} (hV : validUtf8 s.buf = true) (hbuf : s.buf = b :: t)
    (hb : b < 128) (hnb : NoBrk b) : Hops s ⟨s.buf.drop 1, s.sc.stats.update 1 0 1⟩ := by
  have h : Reads ⟨s.buf, s.sc.stats⟩ ⟨s.buf.drop 1, s.sc.stats.update 1 0 1⟩ := by
    rw [hbuf]; exact .one hnb.isBreak
  refine ⟨h.moves, ?_, .inl h⟩
  rw [hbuf] at hV ⊢
  exact validUtf8_drop_ascii (p := [b]) (.cons hb .nil) hV

namespace Closed

/-- `advance 1` and a push, for the indicators. -/
theorem indicator (hC : Closed I) {s : SS} {b : Byte} {t : Str} {tok : Token}
    (hP : P ∨ Ascii s.buf) (hI : I s) (hbuf : s.buf = b :: t) (hb : b < 128) (hnb : NoBrk b)
    (hpush : ∀ {s1}, I s1 → s1.sc.key = s.sc.key → s1.sc.context = s.sc.context →
      I (s1.put (.Token tok) s1.sc.stats.read)) :
    Holds P (do Scan.advance 1; Scan.push tok) s (fun _ s' => Went I s s') I := by
  refine Holds.bind (Holds.advance (Q := fun _ s' => s' = s.move ⟨s.buf.drop 1, s.sc.stats.update 1 0 1⟩)
    hP (by simp [hbuf]) (fun _ => rfl)) ?_
  rintro _ s1 rfl
  rw [Holds.push_iff]
  have h1 := hC.move hI (hops_one (hC.valid hI) hbuf hb hnb)
  exact ⟨hpush h1 rfl rfl, by simp [SS.move, hbuf], rfl⟩

/-- Forgetting the saved key, or failing, then going on. -/
theorem removeKey_bind (hC : Closed I) {s : SS} {k : Scan Unit} {Q : Unit → SS → Prop} (hI : I s)
    (h : I (s.setKey none) → Holds P k (s.setKey none) Q I) :
    Holds P (do Scan.removeSavedKey; k) s Q I := by
  refine (hC.removeKey hI).bind ?_
  rintro _ s1 ⟨rfl, h1⟩
  exact h h1

theorem fetchFlowEntry (hC : Closed I) {s : SS} {t : Str} (hP : P ∨ Ascii s.buf) (hI : I s)
    (hbuf : s.buf = b! ',' :: t) :
    Holds P Scan.fetchFlowEntry s (fun _ s' => Went I s s') I := by
  unfold Scan.fetchFlowEntry
  refine hC.removeKey_bind hI fun h1 => ?_
  rw [Holds.bind_iff, Holds.upd_iff]
  refine (hC.indicator (s := { s.setKey none with
      sc := { (s.setKey none).sc with simpleKeyAllowed := true } }) hP (hC.flags true h1) hbuf (by decide)
    (by decide) fun h hk _ => hC.plain h hk (.inr (.inl rfl))).mono ?_
  intro _ s' h
  exact ⟨h.inv, h.lt, h.state⟩

theorem fetchFlowStart (hC : Closed I) {s : SS} {b : Byte} {t : Str} {map : Bool}
    (hP : P ∨ Ascii s.buf) (hI : I s) (hbuf : s.buf = b :: t) (hb : b < 128) (hnb : NoBrk b) :
    Holds P (Scan.fetchFlowStart map) s (fun _ s' => Went I s s') I := by
  unfold Scan.fetchFlowStart
  rw [Holds.bind_iff, Holds.upd_iff]
  have h1 := hC.move hI (hops_one (hC.valid hI) hbuf hb hnb)
  have h2 := hC.flowStart map h1
  refine Holds.bind (Holds.advance (Q := fun _ s' => s' = (s.move ⟨s.buf.drop 1, s.sc.stats.update 1 0 1⟩).setFlow
    (s.sc.context.flow + 1)) hP (by simp [hbuf]) (fun _ => rfl)) ?_
  rintro _ s1 rfl
  rw [Holds.bind_iff, Holds.push_iff]
  refine (hC.saveKey h2).bind ?_
  rintro _ s2 ⟨h3, hs, -, -, -⟩
  rw [Holds.upd_iff]
  refine ⟨hC.flags true h3, ?_, hs.state⟩
  simp only
  rw [hs.buf]
  simp [SS.put, SS.setFlow, SS.move, hbuf]

theorem fetchFlowEnd (hC : Closed I) {s : SS} {b : Byte} {t : Str} {map : Bool}
    (hP : P ∨ Ascii s.buf) (hI : I s) (hbuf : s.buf = b :: t) (hb : b < 128) (hnb : NoBrk b) :
    Holds P (Scan.fetchFlowEnd map) s (fun _ s' => Went I s s') I := by
  unfold Scan.fetchFlowEnd
  refine hC.removeKey_bind hI fun h1 => ?_
  rw [Holds.bind_iff, Holds.get_iff]
  unfold Context.flowDecrement
  simp only [SS.setKey]
  cases hf : s.sc.context.flow with
  | zero =>
    rw [Holds.bind_iff]
    exact h1
  | succ n =>
    rw [Holds.bind_iff]
    simp only [Holds, SO.lift]
    show Holds P _ _ _ _
    rw [Holds.bind_iff, Holds.upd_iff]
    have h1' := hC.flags false h1
    have h2 := hC.move h1' (hops_one (s := { s.setKey none with
      sc := { (s.setKey none).sc with simpleKeyAllowed := false } }) (hC.valid h1') hbuf hb hnb)
    have h3 := hC.flowEnd map (n := n) h2 rfl hf
    refine Holds.bind (Holds.advance (Q := fun _ s' => s' = (SS.move { s.setKey none with
      sc := { (s.setKey none).sc with simpleKeyAllowed := false } }
        ⟨s.buf.drop 1, s.sc.stats.update 1 0 1⟩).setFlow n) hP (by simp [hbuf]) (fun _ => rfl)) ?_
    rintro _ s1 rfl
    rw [Holds.push_iff]
    exact ⟨h3, by simp [SS.setFlow, SS.move, hbuf], rfl⟩

theorem fetchBlockEntry (hC : Closed I) {s : SS} {t : Str} (hP : P ∨ Ascii s.buf) (hI : I s)
    (hbuf : s.buf = b! '-' :: t) :
    Holds P Scan.fetchBlockEntry s (fun _ s' => Went I s s') I := by
  unfold Scan.fetchBlockEntry Scan.blockEntryCheck
  rw [Holds.bind_iff, Holds.bind_iff, Holds.get_iff]
  split
  · refine (hC.rollHere hI).mono ?_
    rintro _ s1 ⟨h1, hs, -⟩
    rw [Holds.bind_iff, Holds.upd_iff]
    have h2 : I { s1 with sc := { s1.sc with context := Scan.touchZero s1.sc.stats s1.sc.context } } := by
      unfold Scan.touchZero
      split
      · exact h1
      · rename_i e es hi
        split
        · exact hC.touch { e with line := s1.sc.stats.lines } h1 hi
        · exact h1
    refine hC.removeKey_bind h2 fun h3 => ?_
    rw [Holds.bind_iff, Holds.upd_iff]
    refine (hC.indicator (by rw [← hs.buf] at hP; exact hP) (hC.flags true h3)
      (by rw [← hs.buf] at hbuf; exact hbuf) (by decide)
      (by decide) fun h hk _ => hC.plain h hk (.inl rfl)).mono ?_
    intro _ s' h
    refine hs.went ⟨h.inv, h.lt, h.state⟩
  · exact hI

theorem fetchExplicitKey (hC : Closed I) {s : SS} {t : Str} (hP : P ∨ Ascii s.buf) (hI : I s)
    (hbuf : s.buf = b! '?' :: t) :
    Holds P Scan.fetchExplicitKey s (fun _ s' => Went I s s') I := by
  unfold Scan.fetchExplicitKey
  rw [Holds.bind_iff, Holds.get_iff]
  have hcheck : Holds P Scan.explicitKeyCheck s (fun _ s' => I s' ∧ Same s s') I := by
    unfold Scan.explicitKeyCheck
    rw [Holds.bind_iff, Holds.get_iff]
    split
    · split
      · exact hI
      · exact (hC.rollHere hI).mono fun _ s' h => ⟨h.1, h.2.1⟩
    · exact ⟨hI, .refl _⟩
  refine hcheck.bind ?_
  rintro _ s1 ⟨h1, hs⟩
  refine hC.removeKey_bind h1 fun h3 => ?_
  rw [Holds.bind_iff, Holds.upd_iff]
  refine (hC.indicator (by rw [← hs.buf] at hP; exact hP) (hC.flags s.sc.context.isBlock h3)
    (by rw [← hs.buf] at hbuf; exact hbuf) (by decide)
    (by decide) fun h hk _ => hC.plain h hk (.inr (.inr (.inl rfl)))).mono ?_
  intro _ s' h
  exact hs.went ⟨h.inv, h.lt, h.state⟩

/-- The saved key, if it can be one, was saved on this line and not long ago. -/
def Fresh (s : SS) : Prop := ∀ k, s.sc.key = some k → k.possible.allowed = true →
  s.sc.stats.lines ≤ k.stats.lines ∧ s.sc.stats.read ≤ k.stats.read + 1024

theorem valueBare (hC : Closed I) {s : SS} (hI : I s) (hk : s.sc.key = none) :
    Holds P Scan.valueBare s (fun _ s' => I s' ∧ Same s s' ∧ s'.sc.key = none) I := by
  unfold Scan.valueBare
  rw [Holds.bind_iff, Holds.get_iff]
  have hcheck : Holds P Scan.valueCheck s (fun _ s' => I s' ∧ Same s s' ∧ s'.sc.key = none) I := by
    unfold Scan.valueCheck
    rw [Holds.bind_iff, Holds.get_iff]
    split
    · split
      · exact hI
      · exact (hC.rollHere hI).mono fun _ s' h => ⟨h.1, h.2.1, h.2.2.trans hk⟩
    · exact ⟨hI, .refl _, hk⟩
  refine hcheck.bind ?_
  rintro _ s1 ⟨h1, hs, hk1⟩
  rw [Holds.upd_iff]
  exact ⟨hC.flags _ h1, ⟨hs.buf, hs.state, hs.stats, hs.flow⟩, hk1⟩

theorem valueSaved (hC : Closed I) {s : SS} {k : KeySave} (hI : I s) (hk : s.sc.key = some k)
    (ha : k.possible.allowed = true) (hF : Fresh s) :
    Holds P (Scan.valueSaved k) (s.setKey none)
      (fun _ s' => I s' ∧ Same s s' ∧ s'.sc.key = none) I := by
  obtain ⟨hl, hr⟩ := hF k hk ha
  unfold Scan.valueSaved
  have use : ∀ s1 : SS, I s1 → Same s s1 → s1.sc.key = some k →
      Holds P (do
        Scan.enqueue (.Token .Key) k.stats.read
        Scan.upd fun sc => { sc with simpleKeyAllowed := false }) (s1.setKey none)
        (fun _ s' => I s' ∧ Same s s' ∧ s'.sc.key = none) I := by
    intro s1 h1 hs hk1
    rw [Holds.bind_iff, Holds.enqueue_iff, Holds.upd_iff]
    have h2 := hC.useKey h1 hk1 ha (by rw [hs.stats]; exact hl) (by rw [hs.stats]; exact hr)
    exact ⟨hC.flags false (hC.noKey h2), ⟨hs.buf, hs.state, hs.stats, hs.flow⟩, rfl⟩
  unfold Scan.rollIndent
  rw [Holds.bind_iff, Holds.bind_iff, Holds.get_iff]
  simp only [Context.isBlock, beq_iff_eq]
  split
  · rename_i hf
    split
    · rw [Holds.bind_iff, Holds.upd_iff, Holds.enqueue_iff]
      have h1 := hC.rollKey (.new s.sc.context.indent k.stats.lines true) k.stats.column hI hk ha hl hr hf
      exact use _ h1 ⟨rfl, rfl, rfl, rfl⟩ hk
    · simp only [Bool.not_true, Bool.false_and, Bool.false_eq_true, ↓reduceIte]
      exact use s hI (.refl _) hk
  · exact use s hI (.refl _) hk

theorem fetchValue (hC : Closed I) {s : SS} {t : Str} (hP : P ∨ Ascii s.buf) (hI : I s)
    (hF : Fresh s) (hbuf : s.buf = b! ':' :: t) :
    Holds P Scan.fetchValue s (fun _ s' => Went I s s') I := by
  unfold Scan.fetchValue
  rw [Holds.bind_iff, Holds.takeKey_iff]
  have hval : Holds P (Scan.valueKey s.sc.key) (s.setKey none)
      (fun _ s' => I s' ∧ Same s s' ∧ s'.sc.key = none) I := by
    unfold Scan.valueKey
    have bare : Holds P Scan.valueBare (s.setKey none)
        (fun _ s' => I s' ∧ Same s s' ∧ s'.sc.key = none) I :=
      (hC.valueBare (hC.noKey hI) rfl).mono fun _ s' h =>
        ⟨h.1, ⟨h.2.1.buf, h.2.1.state, h.2.1.stats, h.2.1.flow⟩, h.2.2⟩
    split
    · rename_i k hk
      split
      · rename_i ha
        exact hC.valueSaved hI hk ha hF
      · exact bare
    · exact bare
  refine hval.bind ?_
  rintro _ s1 ⟨h1, hs, hk⟩
  refine (hC.indicator (by rw [← hs.buf] at hP; exact hP) h1
    (by rw [← hs.buf] at hbuf; exact hbuf) (by decide)
    (by decide) fun h hk' _ => hC.plain h (hk'.trans hk) (.inr (.inr (.inr rfl)))).mono ?_
  intro _ s' h
  exact hs.went h

theorem fetchDocumentMarker (hC : Closed I) {s : SS} {start : Bool} (hP : P ∨ Ascii s.buf) (hI : I s)
    (hm : startsMarker s.buf = true) :
    Holds P (Scan.fetchDocumentMarker start) s (fun _ s' => Went I s s') I := by
  unfold Scan.fetchDocumentMarker
  refine (hC.unroll none hI).bind ?_
  rintro _ s1 ⟨h1, hs, -, hi⟩
  refine hC.removeKey_bind h1 fun h2 => ?_
  rw [Holds.bind_iff, Holds.upd_iff]
  have hlen : 3 ≤ s.buf.length ∧ (∀ b ∈ s.buf.take 3, NoBrk b) ∧ Ascii (s.buf.take 3) := by
    unfold startsMarker at hm
    split at hm
    · rename_i h; rw [h]; exact ⟨by simp, by simp; decide, by intro b hb; simp at hb; byte_omega⟩
    · rename_i h; rw [h]; exact ⟨by simp, by simp; decide, by intro b hb; simp at hb; byte_omega⟩
    · simp at hm
  have h3 := hC.flags false h2
  refine Holds.bind (Holds.advance (Q := fun _ s' => s' = (SS.move { s1.setKey none with
      sc := { (s1.setKey none).sc with simpleKeyAllowed := false } }
        ⟨s1.buf.drop 3, s1.sc.stats.update 3 0 3⟩)) (by rw [← hs.buf] at hP; exact hP)
      (by simp only [SS.setKey]; rw [hs.buf]; exact hlen.1) (fun _ => rfl)) ?_
  rintro _ s2 rfl
  rw [Holds.push_iff]
  have hh : Hops { s1.setKey none with
      sc := { (s1.setKey none).sc with simpleKeyAllowed := false } }
        ⟨s1.buf.drop 3, s1.sc.stats.update 3 0 3⟩ := by
    have hr : Reads ⟨s1.buf, s1.sc.stats⟩ ⟨s1.buf.drop 3, s1.sc.stats.update 3 0 3⟩ := by
      refine .drop (c := ⟨s1.buf, s1.sc.stats⟩) ?_ ?_
      · simp only; rw [hs.buf]; exact hlen.1
      · simp only; rw [hs.buf]; exact hlen.2.1
    refine ⟨hr.moves, ?_, .inl hr⟩
    simp only
    have hv := hC.valid h1
    rw [hs.buf] at hv ⊢
    exact validUtf8_drop_ascii (p := s.buf.take 3) hlen.2.2 (by rwa [List.take_append_drop])
  have h4 := hC.move h3 hh
  refine ⟨hC.boundary h4 rfl ?_ (hi rfl) (fun h => ?_), ?_, hs.state⟩
  · cases start
    · exact .inr (.inl rfl)
    · exact .inl rfl
  · cases start <;> obtain ⟨_, _, h⟩ | ⟨_, _, h⟩ := h <;> cases h
  · simp only [SS.move]
    rw [hs.buf]
    simp; omega

/-- What a sub-scanner leaves behind, committed. -/
theorem commit_hops (hC : Closed I) {s : SS} {c : Cur} (hI : I s)
    (hm : Moves ⟨s.buf, s.sc.stats⟩ c) (hx : Reads ⟨s.buf, s.sc.stats⟩ c ∨ c.buf = [] ∨
      ((∃ t, s.buf = b! '!' :: b! '<' :: t) ∧ startsWith c.buf b! '>' = true))
    (hb : isBoundary s.buf (s.buf.length - c.buf.length) = true) : Hops s c := by
  refine ⟨hm, ?_, hx⟩
  rw [suffix_drop hm.suffix]
  exact validUtf8_drop (hC.valid hI) hb

theorem fetchDirective (hC : Closed I) {s : SS} {t : Str} (hP : P ∨ Ascii s.buf)
    (hpct : P ∨ NoPct s.buf) (hI : I s) (hbuf : s.buf = b! '%' :: t) :
    Holds P (Scan.fetchDirective opts) s (fun _ s' => Went I s s') I := by
  unfold Scan.fetchDirective
  refine Holds.bind (Holds.sub (R := fun r => Reads ⟨s.buf, {}⟩ r.2 ∧
    r.2.buf.length < s.buf.length ∧ IsDirective r.1)
    (Q := fun r s' => s' = s ∧ Reads ⟨s.buf, {}⟩ r.2 ∧
    r.2.buf.length < s.buf.length ∧ IsDirective r.1) ?_ hI fun a h => ⟨rfl, h⟩) ?_
  · rw [hbuf] at hP hpct ⊢
    exact directiveToken_sat hP hpct
  rintro ⟨tok, c⟩ s0 ⟨rfl, hr, hlt, htok⟩
  simp only at hr hlt htok ⊢
  refine (hC.unroll none hI).bind ?_
  rintro _ s1 ⟨h1, hs, -, hi⟩
  refine hC.removeKey_bind h1 fun h2 => ?_
  rw [Holds.bind_iff, Holds.upd_iff, Holds.bind_iff, Holds.get_iff]
  have h3 := hC.flags false h2
  refine Holds.bind (Holds.commit (Q := fun _ s' => s' = (SS.move { s1.setKey none with
      sc := { (s1.setKey none).sc with simpleKeyAllowed := false } }
        ⟨c.buf, s1.sc.stats.add c.stats⟩) ∧
      isBoundary s1.buf (s1.buf.length - c.buf.length) = true) (by rw [← hs.buf] at hP; exact hP)
      (fun hb => ⟨rfl, hb⟩)) ?_
  rintro _ s2 ⟨rfl, hb⟩
  rw [Holds.push_iff]
  have hr1 : Reads ⟨s1.buf, s1.sc.stats⟩ ⟨c.buf, s1.sc.stats.add c.stats⟩ := by
    rw [hs.buf]; exact hr.add0
  have h4 := hC.move h3 (hC.commit_hops (c := ⟨c.buf, s1.sc.stats.add c.stats⟩) h3 hr1.moves (.inl hr1) hb)
  exact ⟨hC.boundary h4 rfl (.inr (.inr htok)) (hi rfl) (fun _ => ⟨_, hI, t, hbuf⟩), hlt, hs.state⟩

theorem finish (hC : Closed I) {s : SS} {tok : MaybeToken} {c : Cur} (hP : P ∨ Ascii s.buf) (hI : I s)
    (hm : Moves ⟨s.buf, {}⟩ c) (hlt : c.buf.length < s.buf.length)
    (hx : Reads ⟨s.buf, {}⟩ c ∨ ((∃ t, s.buf = b! '!' :: b! '<' :: t) ∧
      startsWith c.buf b! '>' = true)) (ht : IsNode tok) (hp : Spec.PartOf s.buf tok) :
    Holds P (Scan.finish tok c) s (fun _ s' => Went I s s' ∧ NodePut s s') I := by
  unfold Scan.finish
  refine (hC.saveKey hI).bind ?_
  rintro _ s1 ⟨h1, hs, -, ho, hk⟩
  rw [Holds.bind_iff, Holds.upd_iff, Holds.bind_iff, Holds.get_iff]
  have h2 := hC.flags false h1
  refine Holds.bind (Holds.commit (Q := fun _ s' => s' = (SS.move { s1 with
      sc := { s1.sc with simpleKeyAllowed := false } } ⟨c.buf, s1.sc.stats.add c.stats⟩) ∧
      isBoundary s1.buf (s1.buf.length - c.buf.length) = true) (by rw [← hs.buf] at hP; exact hP)
      (fun hb => ⟨rfl, hb⟩)) ?_
  rintro _ s2 ⟨rfl, hb⟩
  rw [Holds.bind_iff, Holds.get_iff, Holds.enqueue_iff]
  have hm1 : Moves ⟨s1.buf, s1.sc.stats⟩ ⟨c.buf, s1.sc.stats.add c.stats⟩ := by
    rw [hs.buf]; exact hm.add
  have hx1 : Reads ⟨s1.buf, s1.sc.stats⟩ ⟨c.buf, s1.sc.stats.add c.stats⟩ ∨ c.buf = [] ∨
      ((∃ t, s1.buf = b! '!' :: b! '<' :: t) ∧ startsWith c.buf b! '>' = true) := by
    rw [hs.buf]
    rcases hx with hx | hx
    · exact .inl hx.add0
    · exact .inr (.inr hx)
  have hh := hC.commit_hops (c := ⟨c.buf, s1.sc.stats.add c.stats⟩) h2 hm1 hx1 hb
  have hlt' : s1.sc.stats.read < (s1.sc.stats.add c.stats).read ∨
      ((∃ t, s.buf = b! '!' :: b! '<' :: t) ∧ startsWith c.buf b! '>' = true) := by
    rcases hx with hx | hx
    · left
      have := hx.read
      simp only [MStats.add, MStats.update] at this ⊢
      omega
    · exact .inr hx
  refine ⟨⟨hC.node h2 hh (hlt'.imp id And.right) ht (by simp only; rw [hs.buf]; exact hp), hlt, hs.state⟩,
    ⟨tok, ht, by simp only [SS.put, SS.move]; rw [ho]⟩, ?_, hk, ?_⟩
  · rw [← hs.stats]
    exact hlt'.imp id And.right
  · rw [← hs.buf, ← hs.stats]
    exact hx1.imp id (Or.imp id And.right)

theorem fetchTag (hC : Closed I) {s : SS} {t : Str} (hP : P ∨ Ascii s.buf)
    (hpct : P ∨ NoPct s.buf) (hI : I s) (hbuf : s.buf = b! '!' :: t) :
    Holds P (Scan.fetchTag opts) s (fun _ s' => Went I s s' ∧ NodePut s s') I := by
  unfold Scan.fetchTag
  have hP' := hP
  rw [hbuf] at hP'
  refine Holds.bind (Holds.sub (s := s) (stats := {})
    (f := scanNodeTag opts)
    (Q := fun r s' => s' = s ∧ Moves ⟨b! '!' :: t, {}⟩ r.2 ∧
      r.2.buf.length < t.length + 1 ∧
      (Reads ⟨b! '!' :: t, {}⟩ r.2 ∨ startsWith t b! '<' = true ∧
        startsWith r.2.buf b! '>' = true) ∧
      ∃ hd sf, r.1 = .Tag hd sf) (by rw [hbuf] at hpct ⊢; exact scanNodeTag_sat hP' hpct) hI
    fun a h => ⟨rfl, h⟩) ?_
  rintro ⟨tok, c⟩ s0 ⟨rfl, hm, hlt, hx, hd, sf, htok⟩
  simp only at hm hlt hx htok ⊢
  subst htok
  refine hC.finish hP hI (by rw [hbuf]; exact hm) (by rw [hbuf]; simpa using hlt) ?_ (.inl rfl) trivial
  rw [hbuf]
  rcases hx with hx | ⟨hx, hx'⟩
  · exact .inl hx
  · obtain ⟨u, rfl⟩ := startsWith_iff.1 hx
    exact .inr ⟨⟨u, rfl⟩, hx'⟩

theorem fetchAnchor (hC : Closed I) {s : SS} {b : Byte} {t : Str} (hP : P ∨ Ascii s.buf)
    (hI : I s) (hbuf : s.buf = b :: t) (hnb : NoBrk b) :
    Holds P (Scan.fetchAnchor opts) s (fun _ s' => Went I s s' ∧ NodePut s s') I := by
  unfold Scan.fetchAnchor
  rw [Holds.bind_iff, Holds.get_iff]
  have hP' := hP
  rw [hbuf] at hP'
  refine Holds.bind (Holds.sub (s := s) (stats := {})
    (f := scanAnchor opts (startsWith s.buf b! '*'))
    (Q := fun r s' => s' = s ∧ Reads ⟨s.buf, {}⟩ r.2 ∧
      r.2.buf.length < s.buf.length ∧ IsNode (.Token r.1))
    (R := fun r => Reads ⟨s.buf, {}⟩ r.2 ∧
      r.2.buf.length < s.buf.length ∧ IsNode (.Token r.1)) ?_ hI fun a h => ⟨rfl, h⟩) ?_
  · rw [hbuf]
    refine (scanAnchor_sat hP' hnb).mono ?_
    rintro ⟨tok, c⟩ ⟨hr, name, hne, -, ht, -, htok⟩
    simp only at hr ht htok ⊢
    refine ⟨hr, by rw [ht]; simp; omega, ?_⟩
    rw [htok]
    split
    · exact .inr (.inr (.inl rfl))
    · exact .inr (.inl rfl)
  rintro ⟨tok, c⟩ s0 ⟨rfl, hr, hlt, htok⟩
  exact hC.finish hP hI hr.moves hlt (.inl hr) htok trivial

theorem fetchFlowScalar (hC : Closed I) {s : SS} {b : Byte} {t : Str} (hP : P ∨ Ascii s.buf)
    (hU : P ∨ NoUni s.buf) (hI : I s) (hbuf : s.buf = b :: t) (hb : b < 128) (hnb : NoBrk b) :
    Holds P (Scan.fetchFlowScalar opts) s (fun _ s' => Went I s s' ∧ NodePut s s') I := by
  unfold Scan.fetchFlowScalar
  rw [Holds.bind_iff, Holds.get_iff]
  have hV := hC.valid hI
  refine Holds.bind (Holds.sub (s := s) (stats := {})
    (f := scanFlow opts (startsWith s.buf 0x27))
    (Q := fun r s' => s' = s ∧ Reads ⟨s.buf, {}⟩ r.2 ∧
      (r.2.buf.length < s.buf.length ∧ IsNode r.1) ∧ Spec.PartOf s.buf r.1)
    (R := fun r => (Reads ⟨s.buf, {}⟩ r.2 ∧
      r.2.buf.length < s.buf.length ∧ IsNode r.1) ∧ Spec.PartOf s.buf r.1)
      (Sat.with ?_ fun a h => scanFlow_part h) hI fun a h => ⟨rfl, h.1.1, h.1.2, h.2⟩) ?_
  · generalize startsWith s.buf 0x27 = single
    rw [hbuf] at hP hU hV ⊢
    unfold scanFlow
    split
    · refine (scanFlowLazy_sat hb hnb hV).bind ?_
      rintro ⟨l, c⟩ ⟨h1, h2, -⟩
      exact ⟨h1, by simp only [List.length_cons] at h2 ⊢; omega, .inr (.inr (.inr rfl))⟩
    · refine (scanFlowEager_sat hP hU hnb.isBreak).bind ?_
      rintro ⟨l, c⟩ ⟨h1, h2, w, h3⟩
      simp only at h3
      subst h3
      exact ⟨h1, by simp only [List.length_cons] at h2 ⊢; omega, .inr (.inr (.inr rfl))⟩
  rintro ⟨tok, c⟩ s0 ⟨rfl, hr, ⟨hlt, htok⟩, hp⟩
  exact hC.finish hP hI hr.moves hlt (.inl hr) htok hp

theorem fetchPlainScalar (hC : Closed I) {s : SS} (hP : P ∨ Ascii s.buf) (hI : I s)
    (hst : PlainStart s.sc.context.isBlock ⟨s.buf, s.sc.stats⟩) :
    Holds P (Scan.fetchPlainScalar opts) s (fun _ s' => Went I s s' ∧ NodePut s s') I := by
  unfold Scan.fetchPlainScalar
  rw [Holds.bind_iff, Holds.get_iff]
  refine Holds.bind (Holds.sub (s := s)
    (Q := fun r s' => s' = s ∧ Reads ⟨s.buf, s.sc.stats⟩ r.2 ∧
      (r.2.buf.length < s.buf.length ∧ IsNode r.1) ∧ Spec.PartOf s.buf r.1)
    (R := fun r => (Reads ⟨s.buf, s.sc.stats⟩ r.2 ∧
      r.2.buf.length < s.buf.length ∧ IsNode r.1) ∧ Spec.PartOf s.buf r.1)
      (Sat.with ?_ fun a h => scanPlain_part h) hI fun a h => ⟨rfl, h.1.1, h.1.2, h.2⟩) ?_
  · unfold scanPlain
    split
    · refine (scanPlainLazy_sat hP hst).bind ?_
      rintro ⟨l, c⟩ ⟨h1, h2⟩
      exact ⟨h1, h2, .inr (.inr (.inr rfl))⟩
    · refine (scanPlainEager_sat hP hst).bind ?_
      rintro ⟨l, c⟩ ⟨h1, h2, w, h3, -⟩
      simp only at h3
      subst h3
      exact ⟨h1, h2, .inr (.inr (.inr rfl))⟩
  rintro ⟨tok, c⟩ s0 ⟨rfl, hr, ⟨hlt, htok⟩, hp⟩
  simp only at hr hlt htok hp ⊢
  refine (hC.saveKey hI).bind ?_
  rintro _ s1 ⟨h1, hs, -, ho, hk⟩
  rw [Holds.bind_iff, Holds.upd_iff]
  have h2 := hC.flags false h1
  refine Holds.bind (Holds.commit (Q := fun _ s' => s' = (SS.move { s1 with
      sc := { s1.sc with simpleKeyAllowed := false } } c) ∧
      isBoundary s1.buf (s1.buf.length - c.buf.length) = true) (by rw [← hs.buf] at hP; exact hP)
      (fun hb => ⟨rfl, hb⟩)) ?_
  rintro _ s2 ⟨rfl, hb⟩
  rw [Holds.enqueue_iff]
  have hr1 : Reads ⟨s1.buf, s1.sc.stats⟩ c := by rw [hs.buf, hs.stats]; exact hr
  have hh := hC.commit_hops (c := c) h2 hr1.moves (.inl hr1) hb
  have hlt' : s0.sc.stats.read < c.stats.read := by
    have := hr.read
    simp only at this ⊢
    omega
  refine ⟨⟨hC.node h2 hh (.inl (by rw [← hs.stats] at hlt'; exact hlt')) htok
      (by simp only; rw [hs.buf]; exact hp), hlt, hs.state⟩,
    ⟨tok, htok, by simp only [SS.put, SS.move]; rw [ho]⟩, .inl hlt', hk, .inl hr⟩

theorem fetchBlockScalar (hC : Closed I) {s : SS} {b : Byte} {t : Str} {fold : Bool}
    (hP : P ∨ (opts.lazy = true ∧ Ascii s.buf)) (hI : I s) (hbuf : s.buf = b :: t) (hnb : NoBrk b) :
    Holds P (Scan.fetchBlockScalar opts fold) s (fun _ s' => Went I s s' ∧ NodePut s s') I := by
  have hPA : P ∨ Ascii s.buf := hP.imp id And.right
  unfold Scan.fetchBlockScalar
  refine hC.removeKey_bind hI fun h1 => ?_
  rw [Holds.bind_iff, Holds.upd_iff, Holds.bind_iff, Holds.get_iff]
  have h2 := hC.flags true h1
  have hne : s.buf ≠ [] := by simp [hbuf]
  have hbr : isBreak s.buf = false := by rw [hbuf]; exact hnb.isBreak
  refine Holds.bind (Holds.sub
    (Q := fun r s' => s' = { s.setKey none with
      sc := { (s.setKey none).sc with simpleKeyAllowed := true } } ∧
      BlockReads ⟨s.buf, s.sc.stats⟩ r.2 ∧ (r.2.buf.length < s.buf.length ∧ IsNode r.1) ∧ Spec.PartOf s.buf r.1)
    (R := fun r => (BlockReads ⟨s.buf, s.sc.stats⟩ r.2 ∧
      r.2.buf.length < s.buf.length ∧ IsNode r.1) ∧ Spec.PartOf s.buf r.1)
      (Sat.with ?_ fun a h => show Spec.PartOf s.buf a.1 from scanBlock_part (c := ⟨s.buf, s.sc.stats⟩) h) h2 fun a h => ⟨rfl, h.1.1, h.1.2, h.2⟩) ?_
  · unfold scanBlock
    split
    · refine (scanBlockLazy_sat hPA hne hbr).bind ?_
      rintro ⟨l, c⟩ ⟨h1, h2⟩
      exact ⟨h1, h2, .inr (.inr (.inr rfl))⟩
    · rename_i hl
      have hp : P := by
        rcases hP with hP | hP
        · exact hP
        · exact absurd hP.1 hl
      refine (scanBlockEager_sat hp hne hbr).bind ?_
      rintro ⟨l, c⟩ ⟨h1, h2, w, h3⟩
      simp only at h3
      subst h3
      exact ⟨h1, h2, .inr (.inr (.inr rfl))⟩
  rintro ⟨tok, c⟩ s0 ⟨rfl, hr, ⟨hlt, htok⟩, hp⟩
  simp only at hr hlt htok hp ⊢
  refine Holds.bind (Holds.commit (Q := fun _ s' => s' = (SS.move { s.setKey none with
      sc := { (s.setKey none).sc with simpleKeyAllowed := true } } c) ∧
      isBoundary s.buf (s.buf.length - c.buf.length) = true) hPA
      (fun hb => ⟨rfl, hb⟩)) ?_
  rintro _ s2 ⟨rfl, hb⟩
  rw [Holds.enqueue_iff]
  have hh := hC.commit_hops (c := c) h2 hr.moves (hr.exact.imp id .inl) hb
  have hlt' : s.sc.stats.read < c.stats.read := by
    have := hr.read
    simp only at this ⊢
    omega
  exact ⟨⟨hC.node h2 hh (.inl hlt') htok hp, hlt, rfl⟩, ⟨tok, htok, rfl⟩, .inl hlt',
    fun k hk => (by cases hk), hr.exact.imp id .inl⟩

theorem expireKey (hC : Closed I) {s : SS} (hI : I s) :
    Holds P Scan.expireKey s (fun _ s' => I s' ∧ Same s s' ∧ Fresh s') I := by
  unfold Scan.expireKey
  rw [Holds.bind_iff, Holds.get_iff]
  cases hk : s.sc.key with
  | none => exact ⟨hI, .refl _, fun k h => by rw [hk] at h; cases h⟩
  | some k =>
    simp only
    split
    · split
      · exact hI
      · rw [Holds.upd_iff]
        refine ⟨hC.stale hI hk, ⟨rfl, rfl, rfl, rfl⟩, ?_⟩
        intro k' h ha
        simp only [Option.some.injEq] at h
        subst h
        simp [KeyPossible.allowed] at ha
    · rename_i h
      refine ⟨hI, .refl _, ?_⟩
      intro k' h' ha
      rw [hk] at h'
      simp only [Option.some.injEq] at h'
      subst h'
      simp [ha] at h
      omega

/-- The key is fresh as long as it and the position do not change. -/
theorem Fresh.same {s s' : SS} (h : Fresh s) (hs : Same s s') (hk : s'.sc.key = s.sc.key) :
    Fresh s' := by
  intro k hk' ha
  rw [hs.stats]
  exact h k (hk ▸ hk') ha

theorem eatWhitespace (hC : Closed I) {s : SS} (hP : P ∨ Ascii s.buf) (hI : I s) :
    Holds P (Scan.eatWhitespace opts) s (fun _ s' => I s' ∧
      Reads ⟨s.buf, s.sc.stats⟩ ⟨s'.buf, s'.sc.stats⟩ ∧ s'.sc.state = s.sc.state) I := by
  unfold Scan.eatWhitespace
  refine Holds.bind (Holds.sub (Q := fun c s' => s' = s ∧ Reads ⟨s.buf, {}⟩ c)
    (eatWs_sat hP) hI fun c h => ⟨rfl, h⟩) ?_
  rintro c s0 ⟨rfl, hr⟩
  rw [Holds.bind_iff, Holds.upd_iff, Holds.bind_iff, Holds.get_iff]
  have h1 := hC.flags (if c.stats.lines ≠ 0 then true else s0.sc.simpleKeyAllowed) hI
  refine Holds.commit hP fun hb => ?_
  have hr1 : Reads ⟨s0.buf, s0.sc.stats⟩ ⟨c.buf, s0.sc.stats.add c.stats⟩ := hr.add0
  exact ⟨hC.move h1 (hC.commit_hops (c := ⟨c.buf, s0.sc.stats.add c.stats⟩) h1 hr1.moves (.inl hr1) hb),
    hr1, rfl⟩

theorem prepare (hC : Closed I) {s : SS} (hP : P ∨ Ascii s.buf) (hI : I s) :
    Holds P (Scan.prepare opts) s (fun _ s' => I s' ∧
      Reads ⟨s.buf, s.sc.stats⟩ ⟨s'.buf, s'.sc.stats⟩ ∧ s'.sc.state = s.sc.state ∧ Fresh s') I := by
  unfold Scan.prepare
  refine (hC.eatWhitespace hP hI).bind ?_
  rintro _ s1 ⟨h1, hr, hst⟩
  refine (hC.expireKey h1).bind ?_
  rintro _ s2 ⟨h2, hs2, hf2⟩
  rw [Holds.bind_iff, Holds.get_iff]
  refine (hC.unroll _ h2).bind ?_
  rintro _ s3 ⟨h3, hs3, hk3, -⟩
  refine (hC.popZero h3).mono ?_
  rintro _ s4 ⟨h4, hs4, hk4⟩
  have hs := (hs2.trans hs3).trans hs4
  refine ⟨h4, ?_, hs.state.trans hst, (hf2.same hs3 hk3).same hs4 hk4⟩
  rw [hs.buf, hs.stats]
  exact hr

theorem fetchStreamStart (hC : Closed I) {s : SS} (hI : I s) (hst : s.sc.state = .Start) :
    Holds P Scan.fetchStreamStart s (fun _ s' => I s' ∧ s'.buf = s.buf ∧ s'.sc.state = .Stream) I := by
  unfold Scan.fetchStreamStart
  rw [Holds.bind_iff, Holds.upd_iff, Holds.push_iff]
  exact ⟨hC.first (hC.flags true hI) hst, rfl, rfl⟩

/-- The state after the last token. -/
inductive Finished (I : SS → Prop) : SS → Prop where
  | intro {s} (h : I s) (state : s.sc.state ≠ .Done) (buf : s.buf = []) (key : s.sc.key = none)
    (indents : s.sc.context.flow = 0 → s.sc.context.indents = []) :
    Finished I ({ s with sc := { s.sc with state := .Done } }.put (.Token .StreamEnd) s.sc.stats.read)

theorem fetchStreamEnd (hC : Closed I) {s : SS} (hI : I s)
    (he : s.buf = [] ∨ s.sc.state = .Done) :
    Holds P Scan.fetchStreamEnd s (fun _ s' => s.sc.state = .Done ∨ Finished I s') I := by
  unfold Scan.fetchStreamEnd
  rw [Holds.bind_iff, Holds.get_iff]
  by_cases hd : s.sc.state = .Done
  · simp only [hd, beq_self_eq_true, ↓reduceIte, Holds.pure_iff]
    exact .inl trivial
  · have hd' : (s.sc.state == .Done) = false := by simpa using hd
    have hb : s.buf = [] := he.resolve_right hd
    simp only [hd', Bool.false_eq_true, ↓reduceIte, hb, List.isEmpty_nil]
    refine (hC.unroll none hI).bind ?_
    rintro _ s1 ⟨h1, hs, -, hi⟩
    refine hC.removeKey_bind h1 fun h2 => ?_
    rw [Holds.bind_iff, Holds.upd_iff, Holds.push_iff]
    refine .inr (.intro h2 ?_ ?_ rfl (hi rfl))
    · simp only [SS.setKey]; rw [hs.state]; exact hd
    · simp only [SS.setKey]; rw [hs.buf]; exact hb

/-- What the text must be like for the step not to panic. -/
structure Safe (opts : SFlags) (s : Str) : Prop where
  ascii : Ascii s
  codes : NoUni s
  percents : NoPct s
  blocks : opts.lazy = true ∨ (b! '|' ∉ s ∧ b! '>' ∉ s)

theorem Safe.right {s t : Str} (h : Safe opts (s ++ t)) : Safe opts t :=
  ⟨h.ascii.right, h.codes.right, h.percents.right, h.blocks.imp id fun ⟨h1, h2⟩ =>
    ⟨fun h => h1 (by simp [h]), fun h => h2 (by simp [h])⟩⟩

theorem Safe.reads {a b : Cur} (h : Reads a b) (ha : P ∨ Safe opts a.buf) : P ∨ Safe opts b.buf := by
  obtain ⟨t, ht⟩ := h.suffix
  rcases ha with ha | ha
  · exact .inl ha
  · rw [ht] at ha; exact .inr ha.right

theorem dispatch_plain {x : Context} {column : Nat} {s : Str}
    (h : Scan.dispatch x column s = .plain) (m : MStats) (hm : m.column = column) :
    PlainStart x.isBlock ⟨s, m⟩ := by
  unfold Scan.dispatch at h
  rcases ite_or h with ⟨_, h⟩ | ⟨h1, h⟩
  · cases h
  rcases ite_or h with ⟨_, h⟩ | ⟨h2, h⟩
  · cases h
  rcases ite_or h with ⟨_, h⟩ | ⟨h3, h⟩
  · cases h
  rcases ite_or h with ⟨_, h⟩ | ⟨h4, h⟩
  · cases h
  rcases ite_or h with ⟨_, h⟩ | ⟨h5, h⟩
  · cases h
  rcases ite_or h with ⟨_, h⟩ | ⟨h6, h⟩
  · cases h
  rcases ite_or h with ⟨_, h⟩ | ⟨h7, h⟩
  · cases h
  rcases ite_or h with ⟨_, h⟩ | ⟨h8, h⟩
  · cases h
  rcases ite_or h with ⟨_, h⟩ | ⟨h9, h⟩
  · cases h
  rcases ite_or h with ⟨_, h⟩ | ⟨h10, h⟩
  · cases h
  rcases ite_or h with ⟨_, h⟩ | ⟨h11, h⟩
  · cases h
  rcases ite_or h with ⟨_, h⟩ | ⟨h12, h⟩
  · cases h
  rcases ite_or h with ⟨hp, -⟩ | ⟨_, h⟩
  rotate_left
  · cases h
  unfold Scan.isPlainScalar at hp
  split at hp
  · cases hp
  · rename_i hws
    refine ⟨by simpa using hws, ?_, ?_, ?_⟩
    · simp only [Bool.or_eq_true, not_or, Bool.not_eq_true, Bool.and_eq_false_iff] at h3 h4 h5 h8
      simp only [plainEnd, flowIndicator, h3.1, h3.2, h4.1, h4.2, h5, Bool.or_false, Bool.and_false,
        Bool.and_eq_false_iff]
      rcases h8 with h8 | h8
      · exact .inl h8
      · simp only [Bool.or_eq_false_iff] at h8
        exact .inr h8.1
    · cases s with
      | nil => rfl
      | cons b t =>
        simp only at hp
        split at hp
        · cases hp
        · rename_i hb
          simp only [startsWith_cons, beq_eq_false_iff_ne]
          rintro rfl
          exact hb (by simp)
    · simp only [isDocumentIndicator, hm]
      simp only [Bool.not_eq_true] at h2
      rw [Bool.and_comm (column == 0), Bool.and_assoc]
      exact h2

theorem ite_ind {α : Type} {p : Prop} [Decidable p] {C : α → Prop} {x y : α} (h1 : p → C x)
    (h2 : ¬ p → C y) : C (if p then x else y) := by
  split
  · exact h1 ‹_›
  · exact h2 ‹_›

/-- What the text starts with when the step decides to fetch something. -/
def Starts (x : Context) (s : Str) : Scan.Fetch → Prop
  | .directive => ∃ t, s = b! '%' :: t
  | .marker start => startsMarker s = true ∧ start = startsWith s b! '-'
  | .flowStart map => ∃ t, s = (if map then b! '{' else b! '[') :: t
  | .flowEnd map => ∃ t, s = (if map then b! '}' else b! ']') :: t
  | .flowEntry => ∃ t, s = b! ',' :: t
  | .blockEntry => ∃ t, s = b! '-' :: t
  | .explicitKey => ∃ t, s = b! '?' :: t
  | .value => ∃ t, s = b! ':' :: t
  | .anchor => ∃ t, s = b! '&' :: t ∨ s = b! '*' :: t
  | .tag => ∃ t, s = b! '!' :: t
  | .block fold => (∃ t, s = (if fold then b! '>' else b! '|') :: t) ∧ x.flow = 0
  | .quoted => ∃ t, s = 0x27 :: t ∨ s = b! '"' :: t
  | .plain => True
  | .unknown => True

theorem starts_pair {s : Str} {a b : Byte} (h : (startsWith s a || startsWith s b) = true) :
    ∃ t, s = (if startsWith s a = true then a else b) :: t := by
  by_cases ha : startsWith s a = true
  · simp only [ha, ↓reduceIte]; exact startsWith_iff.1 ha
  · simp only [Bool.or_eq_true, ha, Bool.false_eq_true, false_or] at h
    simp only [ha, Bool.false_eq_true, ↓reduceIte]
    exact startsWith_iff.1 h

theorem dispatch_starts (x : Context) (column : Nat) (s : Str) :
    Starts x s (Scan.dispatch x column s) := by
  unfold Scan.dispatch
  refine ite_ind (C := Starts x s) (fun h => ?_) fun _ => ?_
  · simp only [Bool.and_eq_true] at h
    exact startsWith_iff.1 h.1
  refine ite_ind (C := Starts x s) (fun h => ?_) fun _ => ?_
  · simp only [Bool.and_eq_true] at h
    exact ⟨h.1, rfl⟩
  refine ite_ind (C := Starts x s) (fun h => starts_pair h) fun _ => ?_
  refine ite_ind (C := Starts x s) (fun h => starts_pair h) fun _ => ?_
  refine ite_ind (C := Starts x s) (fun h => startsWith_iff.1 h) fun _ => ?_
  refine ite_ind (C := Starts x s) (fun h => ?_) fun _ => ?_
  · simp only [Bool.and_eq_true] at h
    exact startsWith_iff.1 h.1
  refine ite_ind (C := Starts x s) (fun h => ?_) fun _ => ?_
  · simp only [Bool.and_eq_true] at h
    exact startsWith_iff.1 h.1
  refine ite_ind (C := Starts x s) (fun h => ?_) fun _ => ?_
  · simp only [Bool.and_eq_true] at h
    exact startsWith_iff.1 h.1
  refine ite_ind (C := Starts x s) (fun h => ?_) fun _ => ?_
  · simp only [Bool.or_eq_true] at h
    rcases h with h | h
    · obtain ⟨t, h⟩ := startsWith_iff.1 h; exact ⟨t, .inl h⟩
    · obtain ⟨t, h⟩ := startsWith_iff.1 h; exact ⟨t, .inr h⟩
  refine ite_ind (C := Starts x s) (fun h => startsWith_iff.1 h) fun _ => ?_
  refine ite_ind (C := Starts x s) (fun h => ?_) fun _ => ?_
  · simp only [Bool.and_eq_true] at h
    refine ⟨starts_pair (by rw [Bool.or_comm]; exact h.1), by simpa [Context.isBlock] using h.2⟩
  refine ite_ind (C := Starts x s) (fun h => ?_) fun _ => ?_
  · simp only [Bool.or_eq_true] at h
    rcases h with h | h
    · obtain ⟨t, h⟩ := startsWith_iff.1 h; exact ⟨t, .inl h⟩
    · obtain ⟨t, h⟩ := startsWith_iff.1 h; exact ⟨t, .inr h⟩
  exact ite_ind (C := Starts x s) (fun _ => trivial) fun _ => trivial

theorem run (hC : Closed I) {s : SS} (hP : P ∨ Safe opts s.buf) (hI : I s) (hF : Fresh s) :
    Holds P (Scan.run opts (Scan.dispatch s.sc.context s.sc.stats.column s.buf)) s
      (fun _ s' => Went I s s') I := by
  have hs := dispatch_starts s.sc.context s.sc.stats.column s.buf
  have hp := dispatch_plain (x := s.sc.context) (column := s.sc.stats.column) (s := s.buf)
  have hA : P ∨ Ascii s.buf := hP.imp id Safe.ascii
  generalize Scan.dispatch s.sc.context s.sc.stats.column s.buf = f at hs hp
  cases f with
  | directive =>
    obtain ⟨t, ht⟩ := hs
    exact hC.fetchDirective hA (hP.imp id Safe.percents) hI ht
  | marker start => exact hC.fetchDocumentMarker hA hI hs.1
  | flowStart map =>
    obtain ⟨t, ht⟩ := hs
    exact hC.fetchFlowStart hA hI ht (by cases map <;> decide) (by cases map <;> decide)
  | flowEnd map =>
    obtain ⟨t, ht⟩ := hs
    exact hC.fetchFlowEnd hA hI ht (by cases map <;> decide) (by cases map <;> decide)
  | flowEntry => obtain ⟨t, ht⟩ := hs; exact hC.fetchFlowEntry hA hI ht
  | blockEntry => obtain ⟨t, ht⟩ := hs; exact hC.fetchBlockEntry hA hI ht
  | explicitKey => obtain ⟨t, ht⟩ := hs; exact hC.fetchExplicitKey hA hI ht
  | value => obtain ⟨t, ht⟩ := hs; exact hC.fetchValue hA hI hF ht
  | anchor =>
    obtain ⟨t, ht | ht⟩ := hs
    · exact (hC.fetchAnchor hA hI ht (by decide)).mono fun _ _ h => h.1
    · exact (hC.fetchAnchor hA hI ht (by decide)).mono fun _ _ h => h.1
  | tag => obtain ⟨t, ht⟩ := hs; exact (hC.fetchTag hA (hP.imp id Safe.percents) hI ht).mono fun _ _ h => h.1
  | block fold =>
    obtain ⟨⟨t, ht⟩, -⟩ := hs
    refine (hC.fetchBlockScalar ?_ hI ht (by cases fold <;> decide)).mono fun _ _ h => h.1
    rcases hP with hP | hP
    · exact .inl hP
    · rcases hP.blocks with h | ⟨h1, h2⟩
      · exact .inr ⟨h, hP.ascii⟩
      · cases fold
        · exact absurd (by rw [ht]; simp) h1
        · exact absurd (by rw [ht]; simp) h2
  | quoted =>
    obtain ⟨t, ht | ht⟩ := hs
    · exact (hC.fetchFlowScalar hA (hP.imp id Safe.codes) hI ht (by decide) (by decide)).mono fun _ _ h => h.1
    · exact (hC.fetchFlowScalar hA (hP.imp id Safe.codes) hI ht (by decide) (by decide)).mono fun _ _ h => h.1
  | plain => exact (hC.fetchPlainScalar hA hI (hp rfl _ rfl)).mono fun _ _ h => h.1
  | unknown => exact hI

/-- How far a step gets: it starts the stream or reads some of the text. -/
def Progress (s s' : SS) : Prop :=
  (s.sc.state = .Start ∧ s'.sc.state = .Stream ∧ s'.buf = s.buf) ∨
  (s.sc.state ≠ .Start ∧ s'.sc.state = s.sc.state ∧ s'.buf.length < s.buf.length)

/-- A step of the scanner before the end preserves what its small changes preserve, makes progress
or ends the stream, terminates, and panics only if `P`. -/
theorem scanNextToken (hC : Closed I) {s : SS} (hP : P ∨ Safe opts s.buf) (hI : I s)
    (hd : s.sc.state ≠ .Done) :
    Holds P (Scan.scanNextToken opts) s
      (fun _ s' => (I s' ∧ Progress s s') ∨ (s.sc.state ≠ .Start ∧ Finished I s')) I := by
  unfold Scan.scanNextToken
  rw [Holds.bind_iff, Holds.get_iff]
  by_cases hst : s.sc.state = .Start
  · simp only [hst, beq_self_eq_true, ↓reduceIte]
    refine (hC.fetchStreamStart hI hst).mono ?_
    rintro _ s' ⟨h1, h2, h3⟩
    exact .inl ⟨h1, .inl ⟨hst, h3, h2⟩⟩
  · have hst' : (s.sc.state == .Start) = false := by simpa using hst
    simp only [hst', Bool.false_eq_true, ↓reduceIte]
    refine (hC.prepare (hP.imp id Safe.ascii) hI).bind ?_
    rintro _ s1 ⟨h1, hr, hs1, hf⟩
    unfold Scan.fetchNext
    rw [Holds.bind_iff, Holds.get_iff]
    by_cases he : (s1.buf.isEmpty || s1.sc.state == .Done) = true
    · simp only [he, ↓reduceIte]
      refine (hC.fetchStreamEnd h1 (by simpa using he)).mono ?_
      rintro _ s' h2
      exact .inr ⟨hst, h2.resolve_left (by rw [hs1]; exact hd)⟩
    · simp only [he, Bool.false_eq_true, ↓reduceIte]
      refine Holds.bind (Holds.lift (Q := fun _ s' => s' = s1) (cache_sat opts 4 s1.buf) h1
        fun _ _ => rfl) ?_
      rintro _ s2 rfl
      refine (hC.run (Safe.reads hr hP) h1 hf).mono ?_
      rintro _ s' ⟨h2, h3, h4⟩
      have := hr.length_le
      simp only at this
      exact .inl ⟨h2, .inr ⟨hst, h4.trans hs1, by omega⟩⟩

end Closed

end Yary
