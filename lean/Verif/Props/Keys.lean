import Verif.Proof.Scan.Since
import Verif.Proof.Scan.Asc
import Verif.Proof.Scan.Texts
import Verif.Props.Position

/-! # The order of tokens, and implicit keys -/

namespace Yary

open Spec

variable {opts : SFlags} {text : List Char} {ops : List ROp}

/-! ### C12 -/

/-- **C12**, order: the tokens handed out by calls without an error come in the order of their
positions. -/
theorem C12_order (h : AllOk (history opts text ops)) :
    (handed (history opts text ops)).Pairwise fun a b => a.readAt ≤ b.readAt := by
  obtain ⟨D, ⟨-, hm⟩, hD⟩ := text_keeps_ok closed_asc asc_noOffset asc_next asc_last
    ((validUtf8_iff _).2 ⟨text, rfl⟩) (asc_start text) ops h
  have : Sorted D := by
    rcases hm with ⟨-, hm⟩ | ⟨-, hm⟩
    · exact hm.sorted
    · exact hm
  exact List.Pairwise.sublist hD.sublist this

example : AllOk (history {} "a: {b: c}\n".toList (List.replicate 7 .pop)) :=
  allOk_of_decide (by decide +kernel)

/-- **C12**, keys: when the scanner pushes the Key token of a possible key it remembered, then, in
the order in which tokens are handed out, that token comes before the tokens of all nodes since the
key was found, and so does the start of a block mapping pushed with it. -/
theorem C12_key_first {k : KeySave} {l o : List TokenEntry} {s s' : SS} (h : Held opts (utf8 text) k l s)
    (hd : s.sc.state ≠ .Done) (hs : Scan.scanNextToken opts s = (.ok (), s'))
    (hk : ⟨.Token .Key, k.stats.read⟩ ∈ pushedBy s s') (ho : IsStableSort s'.out o) :
    ∃ a st b, (st = [] ∨ st = [⟨.Token .BlockMappingStart, k.stats.read⟩]) ∧
      o = a ++ st ++ ⟨.Token .Key, k.stats.read⟩ :: b ∧
      (∀ e ∈ a ++ st, e.readAt ≤ k.stats.read) ∧
      ∀ e ∈ l, isNode e.wrap.marker = true → e ∈ b ∧ e ∉ a ++ st := by
  have hv : validUtf8 (utf8 text) = true := (validUtf8_iff _).2 ⟨text, rfl⟩
  obtain ⟨hB, hkey, hst, hin, hafter⟩ := held_after hv h
  have hl : ∀ e ∈ l, isNode e.wrap.marker = true → k.stats.read < e.readAt := by
    rcases hafter with h | h
    · exact h
    · exact absurd rfl ((fold_step hB hst hd h hs).2 _ hk)
  have hB' : Before s' := by
    rcases (closed_before.scanNextToken (P := True) (opts := opts) (.inl trivial) hB hd).of_ok hs with h | ⟨-, h⟩
    · exact h.1
    · obtain @⟨s, h, -, -, -, -⟩ := h
      exact h.put' _ (Nat.le_refl _) rfl rfl rfl rfl
  rcases step_key hB hs hk rfl with ⟨h1, h2⟩ | ⟨k', q, st, m, h1, h2⟩
  · have := hB.key k hkey
    simp only at h1
    omega
  · have hkk : k' = k := by
      have := h1.key
      rw [hkey] at this
      simpa using this.symm
    subst hkk
    obtain ⟨a, b, e1, e2, e3, e4⟩ := retro_deliver h1 hB'
    have hst' : ∀ e ∈ st, e.readAt ≤ k'.stats.read := by
      intro e he
      rcases h1.start with rfl | rfl
      · cases he
      · simp only [List.mem_singleton] at he
        subst he
        exact Nat.le_refl _
    have hast : ∀ e ∈ a ++ st, e.readAt ≤ k'.stats.read := fun e he =>
      (List.mem_append.1 he).elim (e2 e) (hst' e)
    refine ⟨a, st, _, h1.start, by rw [deliver_unique ho, e1], hast, fun e he hn => ?_⟩
    have hlt := hl e he hn
    constructor
    · rcases e4 e (hin e he) with h | h
      · have := e2 e h; omega
      · exact List.mem_append_left _ h
    · intro hm
      have := hast e hm
      omega

/-- Several steps of the scanner. -/
def steps (opts : SFlags) : Nat → SS → SS
  | 0, s => s
  | n + 1, s => steps opts n (Scan.scanNextToken opts s).2

/-- Whether several steps of the scanner succeed. -/
def stepsOk (opts : SFlags) : Nat → SS → Bool
  | 0, _ => true
  | n + 1, s => decide (s.sc.state ≠ .Done) && (Scan.scanNextToken opts s).1 == .ok () &&
    stepsOk opts n (Scan.scanNextToken opts s).2

theorem reach_steps {errs : Bool} {base : Str} : ∀ n {s : SS}, Reach errs opts base s → stepsOk opts n s = true →
    Reach errs opts base (steps opts n s) := by
  intro n
  induction n with
  | zero => intro s h _; exact h
  | succ n ih =>
    intro s h ho
    simp only [stepsOk, Bool.and_eq_true, decide_eq_true_eq, beq_iff_eq] at ho
    exact ih (.step h ho.1.1 (Prod.ext ho.1.2 rfl)) ho.2

/-- After `a`, the tokens since the key was found are the scalar's. -/
example : Held {} (utf8 "a: b".toList) ⟨.Yes, {}⟩ [⟨.Token (.Scalar (bytes! "a") .Plain), 1⟩]
    (steps {} 2 ⟨{}, utf8 "a: b".toList, []⟩) ∧
    (⟨.Token .Key, 0⟩ : TokenEntry) ∈ pushedBy (steps {} 2 ⟨{}, utf8 "a: b".toList, []⟩)
      (steps {} 3 ⟨{}, utf8 "a: b".toList, []⟩) := by
  refine ⟨?_, by decide +kernel⟩
  have h1 : Reach true {} (utf8 "a: b".toList) (steps {} 1 ⟨{}, utf8 "a: b".toList, []⟩) :=
    reach_steps 1 .start (by decide +kernel)
  have h2 := Held.found (k := ⟨.Yes, {}⟩) (s' := steps {} 2 ⟨{}, utf8 "a: b".toList, []⟩) h1
    (by decide +kernel) (by decide +kernel) (by rfl) (by decide +kernel)
  have h3 : pushedBy (steps {} 1 ⟨{}, utf8 "a: b".toList, []⟩) (steps {} 2 ⟨{}, utf8 "a: b".toList, []⟩) =
    [⟨.Token (.Scalar (bytes! "a") .Plain), 1⟩] := by decide +kernel
  rwa [h3] at h2

/-- The states of the scanner inside a reader, between calls without a panic, with the tokens
produced so far. -/
theorem reader_midway (h : NoPanic (history opts text ops)) :
    ∃ D, (Midway (utf8 text) Running Ended (readerAfter opts text ops).reader.src D ∧
      Reach true { opts with extendable := false } (utf8 text) ⟨(readerAfter opts text ops).reader.src,
        (utf8 text).drop (readerAfter opts text ops).reader.src.offset, []⟩) ∧
      handed (history opts text ops) <+: D := by
  have hv : validUtf8 (utf8 text) = true := (validUtf8_iff _).2 ⟨text, rfl⟩
  exact reader_keeps (drive := borrowDrive opts (utf8 text)) (K := fun o => o ≠ .panic)
    (J := fun sc D => Midway (utf8 text) Running Ended sc D ∧
      Reach true { opts with extendable := false } (utf8 text) ⟨sc, (utf8 text).drop sc.offset, []⟩) (src := {})
    (fun sc D o b s' hJ hd hK => by
      refine ⟨midway_drive sc D o b s' hJ.1 hd hK, ?_⟩
      have hdiv := (borrow_keeps (P := True) (opts := opts) closed_running static_running
        running_next running_last (.inl trivial) hv hJ.1 hd).2.1
      unfold borrowDrive at hd
      cases hr : scanTokens { opts with extendable := false } (utf8 text) sc with
      | mk o' r =>
        obtain ⟨sc', out'⟩ := r
        rw [hr] at hd
        cases o' with
        | ok u =>
          simp only [Prod.mk.injEq] at hd
          obtain ⟨-, rfl, rfl⟩ := hd
          exact .hand (loop_reach hv _ _ _ hJ.2 hr (by simp) (by simp))
        | err e =>
          simp only [Prod.mk.injEq] at hd
          obtain ⟨-, rfl, rfl⟩ := hd
          exact .hand (loop_reach hv _ _ _ hJ.2 hr (by simp) (by simp))
        | panic =>
          simp only [Prod.mk.injEq] at hd
          exact absurd hd.1.symm hK
        | diverge =>
          simp only [Prod.mk.injEq] at hd
          exact absurd hd.1.symm hdiv)
    ⟨midway_start (running_start text), .start⟩ ops (fun x hx hp => h x hx (void_eq_panic.1 hp))

/-- The states of the scanner inside a reader, between calls without a panic, are among those the
theorems here range over. -/
theorem reader_reach (h : NoPanic (history opts text ops)) :
    Reach true { opts with extendable := false } (utf8 text) ⟨(readerAfter opts text ops).reader.src,
      (utf8 text).drop (readerAfter opts text ops).reader.src.offset, []⟩ := by
  obtain ⟨D, ⟨-, hR⟩, -⟩ := reader_midway h
  exact hR

/-! ### C24 -/

/-- **C24**: a Key token pushed for what was read before is that of the remembered possible key; it
is on the line of the `:`, and the `:` is at most 1024 bytes after it. Positions are those the
scanner counts. -/
theorem C24_counted {errs : Bool} {s s' : SS} (h : Reach errs opts (utf8 text) s)
    (hs : Scan.scanNextToken opts s = (.ok (), s')) {e : TokenEntry} (he : e ∈ pushedBy s s')
    (hm : e.wrap.marker = .Key) (hr : e.readAt < s'.sc.stats.read) :
    ∃ k, s.sc.key = some k ∧ k.possible ≠ .No ∧ e.readAt = k.stats.read ∧ s'.sc.stats.lines = k.stats.lines ∧
      s'.sc.stats.read ≤ k.stats.read + 1024 + 1 ∧
      (pushedBy s s').getLast? = some ⟨.Token .Value, s'.sc.stats.read⟩ := by
  have hv : validUtf8 (utf8 text) = true := (validUtf8_iff _).2 ⟨text, rfl⟩
  have hB := reach_before hv h
  rcases step_key hB hs he hm with ⟨h1, -⟩ | ⟨k, q, st, m, h1, rfl⟩
  · omega
  · have ha := (reach_above hv h).key k h1.key
    have hl := h1.reads.moves.lines_le
    have h2 := h1.lines
    have h3 := h1.read
    simp only at hl
    refine ⟨k, h1.key, ?_, rfl, ?_, ?_, ?_⟩
    · intro h; have := h1.allowed; rw [h] at this; cases this
    · rw [h1.stats]; simp only [MStats.update, Nat.add_zero]; omega
    · rw [h1.stats]; simp only [MStats.update]; omega
    · unfold pushedBy
      rw [h1.out, List.drop_left, h1.stats]
      simp [MStats.update]

/-- **C24**, in terms of the text: until the first error, a Key token pushed for what was read before is
that of a possible key, found where a piece of text begins that has at most 1024 bytes and no line break
and is followed by the `:` just read. -/
theorem C24_text {s s' : SS} (h : Reach false opts (utf8 text) s) (hd : s.sc.state ≠ .Done)
    (hs : Scan.scanNextToken opts s = (.ok (), s')) {e : TokenEntry} (he : e ∈ pushedBy s s')
    (hm : e.wrap.marker = .Key) (hr : e.readAt < s'.sc.stats.read) :
    ∃ k a key, s.sc.key = some k ∧ e.readAt = k.stats.read ∧
      FoundAt opts (utf8 text) k (key ++ b! ':' :: s'.buf) ∧
      utf8 text = a ++ key ++ b! ':' :: s'.buf ∧ key.length ≤ 1024 ∧
      ∀ i < key.length, ¬ AtBreak ((key ++ b! ':' :: s'.buf).drop i) := by
  have hv : validUtf8 (utf8 text) = true := (validUtf8_iff _).2 ⟨text, rfl⟩
  have hB := reach_before hv h
  rcases step_key hB hs he hm with ⟨h1, -⟩ | ⟨k, q, st, m, h1, rfl⟩
  · omega
  · rcases reach_since hv h k h1.key h1.allowed with hnil | ⟨hg, hst⟩ | ⟨b, hf, g2⟩
    · obtain ⟨p, hp⟩ := h1.reads.suffix
      simp only at hp
      rw [hnil] at hp
      simp at hp
    · exact absurd hm ((fold_step hB hst hd hg hs).2 _ he)
    · replace g2 := g2.trans h1.reads
      obtain ⟨key, e3, e4⟩ := g2.posAfter
      simp only at e3 e4
      have hread : m.read = k.stats.read + key.length := by rw [e4]; rfl
      have h2 := h1.read
      have hb : ∃ a, utf8 text = a ++ b := by
        obtain ⟨s0, s0', n, r, hr0, -, -, hsk, hb⟩ := hf
        obtain ⟨p, hp⟩ := (reach_tailOf hv hr0).suffix
        obtain ⟨p', hp'⟩ := hsk.suffix
        rcases hb with rfl | ⟨x, -, rfl⟩
        · exact ⟨p ++ p', by rw [List.append_assoc, ← hp', hp]⟩
        · exact ⟨p ++ p' ++ [x], by rw [List.append_assoc, List.append_assoc, List.singleton_append, ← hp', hp]⟩
      obtain ⟨a, ha⟩ := hb
      rw [e3] at hf
      refine ⟨k, a, key, h1.key, rfl, hf, by rw [ha, e3, List.append_assoc], by omega, fun i hi => ?_⟩
      have := g2.noBreak h1.lines i (by simp only [e3, List.length_append]; omega)
      simp only [e3] at this
      rw [atBreak_iff, this]
      simp

/-- The position of the Key token is that of the piece of text, if there are no verbatim tags, whose
brackets are not counted. -/
theorem C24_position {s s' : SS} (h : Reach false opts (utf8 text) s) (hb : ∀ p t, utf8 text ≠ p ++ bytes! "!<" ++ t)
    (hs : Scan.scanNextToken opts s = (.ok (), s')) {e : TokenEntry} (he : e ∈ pushedBy s s')
    (hm : e.wrap.marker = .Key) (hr : e.readAt < s'.sc.stats.read) :
    ∃ a key, utf8 text = a ++ key ++ b! ':' :: s'.buf ∧ e.readAt = a.length ∧ key.length ≤ 1024 ∧
      ∀ i < key.length, ¬ AtBreak ((key ++ b! ':' :: s'.buf).drop i) := by
  have hv : validUtf8 (utf8 text) = true := (validUtf8_iff _).2 ⟨text, rfl⟩
  have hM := reach_keyMarked (fun p t hp => hb p t (by simp [hp])) hv h
  rcases step_key (reach_before hv h) hs he hm with ⟨h1, -⟩ | ⟨k, q, st, m, h1, rfl⟩
  · omega
  · rcases hM.exact with hnil | ⟨hr1, hr2⟩
    · obtain ⟨p, hp⟩ := h1.reads.suffix
      simp only at hp
      rw [hnil] at hp
      simp at hp
    · obtain ⟨b, g1, g2⟩ := hr2 k h1.key
      replace g2 := g2.trans h1.reads
      obtain ⟨a, e1, e2⟩ := g1.posAfter
      obtain ⟨key, e3, e4⟩ := g2.posAfter
      simp only at e1 e2 e3 e4
      have hread : m.read = k.stats.read + key.length := by rw [e4]; rfl
      have h2 := h1.read
      refine ⟨a, key, by rw [e1, e3, List.append_assoc], by rw [e2]; simp [posAfter], by omega, fun i hi => ?_⟩
      have := g2.noBreak h1.lines i (by simp only [e3, List.length_append]; omega)
      simp only [e3] at this
      rw [atBreak_iff, this]
      simp

example : Reach false {} (utf8 "a: b".toList) (steps {} 2 ⟨{}, utf8 "a: b".toList, []⟩) ∧
    (pushedBy (steps {} 2 ⟨{}, utf8 "a: b".toList, []⟩) (steps {} 3 ⟨{}, utf8 "a: b".toList, []⟩)).map
      (fun e => (e.wrap.marker, e.readAt)) = [(.BlockMappingStart, 0), (.Key, 0), (.Value, 2)] :=
  ⟨reach_steps 2 .start (by decide +kernel), by decide +kernel⟩

/-- **C24**: a possible key is found where a token starts, after white space and comments, or right
after the bracket of a flow collection. -/
theorem C24_candidate {errs : Bool} {s s' : SS} (h : Reach errs opts (utf8 text) s)
    (hs : Scan.scanNextToken opts s = (.ok (), s')) {k : KeySave} (hk : s'.sc.key = some k)
    (ha : k.possible ≠ .No) (hn : s.sc.key ≠ some k) :
    ∃ n p r, Skips true s.buf n r ∧ s.buf = p ++ r ∧
      (k.stats = posAfter s.sc.stats p ∨ ∃ b t, (b = b! '[' ∨ b = b! '{') ∧ r = b :: t ∧
        k.stats = posAfter (posAfter s.sc.stats p) [b]) := by
  have hv : validUtf8 (utf8 text) = true := (validUtf8_iff _).2 ⟨text, rfl⟩
  obtain ⟨s1, h1, h2⟩ := step_candidate (reach_before hv h) hs hk
    (by cases hp : k.possible <;> simp_all [KeyPossible.allowed]) hn
  obtain ⟨n, p, g1, g2, g3, -⟩ := C14_line_change h1
  refine ⟨n, p, s1.buf, g1, g2, ?_⟩
  rw [← g3]
  rcases h2 with h2 | ⟨b, t, h2, h3, h4⟩
  · exact .inl h2
  · refine .inr ⟨b, t, h3, h2, ?_⟩
    rw [h4, posAfter_byte (by rcases h3 with rfl | rfl <;> rfl), posAfter_nil]

/-- **C24**: a mandatory key is an error, once the next token is on another line or more than 1024
bytes away (in an ASCII text that is complete). -/
theorem C24_required {errs : Bool} {s : SS} (h : Reach errs opts (utf8 text) s) (hst : s.sc.state ≠ .Start)
    (hx : opts.extendable = false) (ha : ∀ b ∈ s.buf, b < 128) {k : KeySave} (hk : s.sc.key = some k)
    (hr : k.possible = .Required) {n : Nat} {p r : Str} (hsk : Skips true s.buf n r) (hp : s.buf = p ++ r)
    (hfar : n ≠ 0 ∨ k.stats.read + 1024 < s.sc.stats.read + p.length) :
    (Scan.scanNextToken opts s).1 = .err .MissingValue := by
  have hv : validUtf8 (utf8 text) = true := (validUtf8_iff _).2 ⟨text, rfl⟩
  have habove := (reach_above hv h).key k hk
  obtain ⟨c, hc⟩ := C14_succeeds (comments := true) (c := ⟨s.buf, {}⟩) hx (.inl ha)
  have hvalid := eatWs_valid (c := ⟨s.buf, {}⟩) (reach_before hv h).valid hc
  obtain ⟨n', p', g1, g2, g3, g4⟩ := C14_skips hc
  obtain ⟨rfl, rfl⟩ := C14_unique hsk g1
  simp only at g1 g2 g3 g4
  have hpp : p = p' := List.append_cancel_right (hp.symm.trans g2)
  subst hpp
  have hws : ∃ s1, Scan.eatWhitespace opts s = (.ok (), s1) := by
    have hbd : isBoundary s.buf (s.buf.length - c.buf.length) = true := boundary_of_drop hvalid ⟨p, g2⟩
    unfold Scan.eatWhitespace Scan.sub
    simp only [bind, SO.bind, Scan.get, SO.get, SO.lift, hc, Scan.upd, SO.modify, Scan.commit, hbd, ↓reduceIte,
      Prod.mk.injEq, true_and, exists_eq']
  obtain ⟨s1, h1⟩ := hws
  obtain ⟨c', hc', rfl⟩ := eatWhitespace_ok h1
  rw [hc] at hc'
  simp only [Out.ok.injEq] at hc'
  subst hc'
  refine step_expired hst hk hr h1 ?_
  simp only [MStats.add, MStats.update]
  have hread : c.stats.read = p.length := by rw [g3]; simp [posAfter]
  rcases hfar with hfar | hfar
  · left; omega
  · right; omega

/-- `c` has to be a key of the mapping, and is not: the next token is on another line. -/
example : Reach false {} (utf8 "a: b\n'c'\nd: e".toList) (steps {} 5 ⟨{}, utf8 "a: b\n'c'\nd: e".toList, []⟩) ∧
    (steps {} 5 ⟨{}, utf8 "a: b\n'c'\nd: e".toList, []⟩).sc.key = some ⟨.Required, ⟨5, 1, 0⟩⟩ ∧
    (Scan.scanNextToken {} (steps {} 5 ⟨{}, utf8 "a: b\n'c'\nd: e".toList, []⟩)).1 = .err .MissingValue :=
  ⟨reach_steps 5 .start (by decide +kernel), by decide +kernel, by decide +kernel⟩

end Yary
