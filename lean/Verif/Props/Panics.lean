import Verif.Proof.Scan.JamStep
import Verif.Proof.Scan.Suffix
import Verif.Props.Faults

/-! # Panics have a cause in the text -/

namespace Yary

open Spec

variable {opts : SFlags} {text : List Char} {ops : List ROp}

/-! ### C58 -/

/-- **C58**: if the scanner panics, it is because of what is next in the text, after white space and comments, or of one of these comments.
This holds in all states, also after errors. -/
theorem C58_means {s s' : SS} (h : Reach true opts (utf8 text) s) (hst : s.sc.state = .Stream) (hs : Scan.scanNextToken opts s = (.panic, s')) :
    JamAhead opts.lazy s.sc.context.flow (s'.sc.context.level.getD 0) (levelSucc s'.sc.context.level) s.sc.stats s.buf := by
  have hv : validUtf8 (utf8 text) = true := (validUtf8_iff _).2 ⟨text, rfl⟩
  rcases step_breaks (reach_before hv h) hst hs with h1 | ⟨s1, n, p, h1, h2, h3, h4, h5⟩
  · exact .inl h1
  · refine .inr ⟨n, p, s1.buf, h1, h2, ?_⟩
    unfold JamHere at h5
    rwa [h3, h4] at h5

/-- A character of two bytes, in a plain scalar. -/
example : Reach true {} (utf8 "a: né".toList) (steps {} 3 ⟨{}, utf8 "a: né".toList, []⟩) ∧
    (steps {} 3 ⟨{}, utf8 "a: né".toList, []⟩).sc.state = .Stream ∧ (Scan.scanNextToken {} (steps {} 3 ⟨{}, utf8 "a: né".toList, []⟩)).1 = .panic :=
  ⟨reach_steps 3 .start (by decide +kernel), by decide +kernel, by decide +kernel⟩

/-- A lazy scanner, and a tag. -/
example : Reach true { lazy := true } (utf8 "- 'é'\n- !%C0%80 b".toList) (steps { lazy := true } 4 ⟨{}, utf8 "- 'é'\n- !%C0%80 b".toList, []⟩) ∧
    (steps { lazy := true } 4 ⟨{}, utf8 "- 'é'\n- !%C0%80 b".toList, []⟩).sc.state = .Stream ∧
    (Scan.scanNextToken { lazy := true } (steps { lazy := true } 4 ⟨{}, utf8 "- 'é'\n- !%C0%80 b".toList, []⟩)).1 = .panic :=
  ⟨reach_steps 4 .start (by decide +kernel), by decide +kernel, by decide +kernel⟩

/-! ### Readers -/

theorem reach_tail {errs : Bool} {base : Str} (hv : validUtf8 base = true) {s : SS} (h : Reach errs opts base s) : TailOf base s := by
  induction h with
  | start => exact ⟨hv, [], rfl⟩
  | step h hd hs ih =>
    have := (closed_tailOf.scanNextToken (P := True) (opts := opts) (.inl trivial) ih hd).of_ok hs
    rcases this with h | ⟨-, h⟩
    · exact h.1
    · obtain @⟨s, h, -, -, -, -⟩ := h
      exact ⟨h.valid, h.suffix⟩
  | fail _ _ _ _ ih => exact ⟨ih.valid, ih.suffix⟩
  | more _ h hd hs ih =>
    have := closed_tailOf.scanNextToken (P := True) (opts := opts) (.inl trivial) ih hd
    simpa only [Holds, hs] using this
  | hand h ih => exact ⟨ih.valid, ih.suffix⟩
  | offset n h ih => exact ⟨ih.valid, ih.suffix⟩

/-- A call of the scanner panics in one of its steps. -/
theorem loop_panics {base : Str} (hv : validUtf8 base = true) : ∀ fuel (sc : Scanner) (out : List TokenEntry)
    {sc' : Scanner} {out' : List TokenEntry}, Reach true opts base ⟨sc, base.drop sc.offset, out⟩ →
    scanLoop opts base fuel sc out = (.panic, sc', out') → ∃ s s', Reach true opts base s ∧ s.sc.state ≠ .Done ∧ Scan.scanNextToken opts s = (.panic, s') := by
  intro fuel
  induction fuel with
  | zero =>
    intro sc out sc' out' _ h
    simp [scanLoop] at h
  | succ fuel ih =>
    intro sc out sc' out' hR h
    rw [scanLoop] at h
    by_cases hgo : (decide (sc.state ≠ .Done) && (out.isEmpty || sc.keyPossible)) = true
    · rw [if_pos hgo] at h
      have hd : sc.state ≠ .Done := by
        simp only [ne_eq, Bool.and_eq_true, decide_eq_true_eq] at hgo
        exact hgo.1
      by_cases hb : isBoundary base sc.offset = true
      · rw [if_pos hb] at h
        cases hs : Scan.scanNextToken opts ⟨sc, base.drop sc.offset, out⟩ with
        | mk r s =>
          rw [hs] at h
          cases r with
          | ok a =>
            simp only at h
            have hR' := Reach.step hR hd hs
            obtain ⟨p, hp⟩ := (reach_tail hv hR').suffix
            have e1 : base.drop (base.length - s.buf.length) = s.buf := by rw [hp]; simp
            refine ih _ _ ?_ h
            simp only
            rw [e1]
            exact hR'.offset _
          | err e =>
            simp only at h
            split at h <;> simp at h
          | panic => exact ⟨_, _, hR, hd, hs⟩
          | diverge => simp at h
      · rw [if_neg hb] at h
        exact ih _ _ hR h
    · rw [if_neg hgo] at h
      simp at h

theorem step_started {s s' : SS} (hs : Scan.scanNextToken opts s = (.panic, s')) : s.sc.state ≠ .Start := by
  intro h0
  have : Scan.scanNextToken opts s = Scan.fetchStreamStart s := by
    show (if (s.sc.state == .Start) = true then Scan.fetchStreamStart else _) s = _
    rw [h0]; rfl
  rw [this] at hs
  cases hs

/-- One drive. -/
theorem drive_panics {sc : Scanner} {b : List TokenEntry} {sc' : Scanner}
    (hR : Reach true { opts with extendable := false } (utf8 text) ⟨sc, (utf8 text).drop sc.offset, []⟩)
    (hd : borrowDrive opts (utf8 text) sc = (.panic, b, sc')) :
    ∃ s s', Reach true { opts with extendable := false } (utf8 text) s ∧ (∃ q, utf8 text = q ++ s.buf) ∧ s.sc.state = .Stream ∧
      Scan.scanNextToken { opts with extendable := false } s = (.panic, s') ∧
      JamAhead opts.lazy s.sc.context.flow (s'.sc.context.level.getD 0) (levelSucc s'.sc.context.level) s.sc.stats s.buf := by
  have hv : validUtf8 (utf8 text) = true := (validUtf8_iff _).2 ⟨text, rfl⟩
  unfold borrowDrive at hd
  cases hr : scanTokens { opts with extendable := false } (utf8 text) sc with
  | mk o' r =>
    obtain ⟨sc1, out1⟩ := r
    rw [hr] at hd
    cases o' with
    | panic =>
      obtain ⟨s, s', h1, h2, h3⟩ := loop_panics hv _ _ _ hR hr
      have hst : s.sc.state = .Stream := by
        cases hss : s.sc.state with
        | Start => exact absurd hss (step_started h3)
        | Stream => rfl
        | Done => exact absurd hss h2
      exact ⟨s, s', h1, (reach_tail hv h1).suffix, hst, h3, C58_means (opts := { opts with extendable := false }) h1 hst h3⟩
    | _ => simp at hd

/-- **C58**: if a call of a reader panics, whatever the calls before it, errors included, then the scanner has read a part of the text, and what
is next in the text makes it panic. -/
theorem C58_reader {op : ROp} (h : NoPanic (history opts text ops))
    (hp : (op.run (borrowDrive opts (utf8 text)) (readerAfter opts text ops)).1 = .panic) :
    ∃ s s', Reach true { opts with extendable := false } (utf8 text) s ∧ (∃ q, utf8 text = q ++ s.buf) ∧ s.sc.state = .Stream ∧
      Scan.scanNextToken { opts with extendable := false } s = (.panic, s') ∧
      JamAhead opts.lazy s.sc.context.flow (s'.sc.context.level.getD 0) (levelSucc s'.sc.context.level) s.sc.stats s.buf := by
  rcases op_result (drive := borrowDrive opts (utf8 text)) op (readerAfter opts text ops) with h1 | h1
  · rw [hp] at h1; cases h1
  · rw [hp] at h1
    exact drive_panics (b := _) (sc' := _) (reader_reach h) (Prod.ext h1.symm rfl)

/-- A call panics, after five that do not. -/
example : NoPanic (history {} "a: é".toList (List.replicate 5 .pop)) ∧
    (ROp.pop.run (borrowDrive {} (utf8 "a: é".toList)) (readerAfter {} "a: é".toList (List.replicate 5 .pop))).1 = .panic :=
  ⟨noPanic_of_decide (by decide +kernel), by decide +kernel⟩

/-! ### ASCII -/

theorem wideComment_ascii {s : Str} (h : WideComment s) (ha : Ascii s) : False := by
  induction h with
  | here _ ht => exact wide_ascii (p := 0x23 :: _) ha ht
  | blank _ _ ih => exact ih (Ascii.right (s := [_]) ha)
  | line _ _ ih => exact ih ha.right
  | comment _ _ ih => exact ih (Ascii.right (s := 0x23 :: _) ha)

theorem Spec.Within.suffix {single : Bool} {s t : Str} (h : Within single s t) : ∃ p, s = p ++ t := by
  have go : ∀ {p a t : Str}, s = p ++ (a ++ t) → ∃ p, s = p ++ t := fun {p a t} h => ⟨p ++ a, by rw [h, List.append_assoc]⟩
  induction h with
  | start => exact ⟨[], rfl⟩
  | char _ _ _ _ ih => exact go (a := [_]) ih.choose_spec
  | blank _ _ _ ih => exact go (a := [_]) ih.choose_spec
  | fold _ hs _ ih =>
    obtain ⟨p, hp⟩ := hs.suffix
    rw [hp] at ih
    exact go ih.choose_spec
  | quote _ _ ih => exact go (a := [_, _]) ih.choose_spec
  | @escape e t _ _ _ ih => exact go (a := 0x5C :: e) ih.choose_spec
  | join _ _ _ hk _ ih =>
    obtain ⟨p, hp⟩ := hk.suffix
    rw [hp] at ih
    exact go (a := 0x5C :: p) ih.choose_spec

theorem Spec.InPlain.suffix {block : Bool} {indent : Nat} {m m' : MStats} {s t : Str} (h : InPlain block indent m s m' t) : ∃ p, s = p ++ t := by
  induction h with
  | start => exact ⟨[], rfl⟩
  | @more m' w p t n _ _ _ _ ih =>
    obtain ⟨q, hq⟩ := ih
    exact ⟨q ++ (w ++ p), by rw [hq]; simp⟩

theorem jam_ascii {lazy : Bool} {flow base indent : Nat} {m : MStats} {s : Str} (ha : Ascii s) (h : Jam lazy flow base indent m s) : AsciiJam lazy base s := by
  cases h with
  | tag h => exact .tag h
  | directive _ h => exact .directive h
  | @quoted s single hl h =>
    have ha := Ascii.right (s := [_]) ha
    cases h with
    | wide h ht => exact (wide_ascii (p := []) (ha.suffix h.suffix) ht).elim
    | code hs h hb hd hv hr =>
      subst hs
      exact .code hl h hb hd hv hr
  | plain _ h =>
    cases h with
    | wide h _ ht => exact (wide_ascii (ha.suffix h.suffix) ht).elim
    | cut _ h _ _ _ hc =>
      obtain ⟨y, u, rfl, hy⟩ := hc
      exact absurd (ha.suffix h.suffix y (by simp)) (by byte_omega)
  | @block s fold _ h =>
    have ha := Ascii.right (s := [_]) ha
    have hx : (if fold then b! '>' else b! '|') = b! '|' ∨ (if fold then b! '>' else b! '|') = b! '>' := by cases fold <;> simp
    cases h with
    | comment hs _ _ _ ht =>
      rw [hs] at ha
      exact (wide_ascii (p := 0x23 :: _) (ha.right.right) ht).elim
    | wide hh _ hl _ hu _ hv => exact (wide_ascii (((ha.suffix (HeaderText.suffix hh)).suffix hl.suffix).suffix hu.suffix) hv).elim
    | digit hl hh hd => exact .digit hl hx hh hd
    | empty hz hh hd hl hn hf => exact .empty hz hx hh hd hl hn hf
    | clip _ hh _ hl _ hu _ _ hv =>
      obtain ⟨b, v', rfl, hb⟩ := hv
      have := (ha.suffix (HeaderText.suffix hh)).suffix hl.suffix
      rw [hu] at this
      exact absurd (this b (by simp)) (by byte_omega)
    | keep _ hh _ hl _ hu _ _ hc =>
      obtain ⟨b, w', rfl, hb⟩ := hc
      have := (ha.suffix (HeaderText.suffix hh)).suffix hl.suffix
      rw [hu] at this
      exact absurd (this b (by simp)) (by byte_omega)

theorem ahead_ascii {lazy : Bool} {flow base indent : Nat} {m : MStats} {s : Str} (ha : Ascii s) (h : JamAhead lazy flow base indent m s) :
    ∃ n p r, s = p ++ r ∧ Skips true s n r ∧ AsciiJam lazy base r := by
  rcases h with h | ⟨n, p, r, h1, h3, h2⟩
  · exact (wideComment_ascii h ha).elim
  · exact ⟨n, p, r, h1, h3, jam_ascii (h1 ▸ ha).right h2⟩

theorem ascii_utf8 (ascii : ∀ c ∈ text, c.toNat < 128) : Ascii (utf8 text) := by
  intro b hb
  rw [utf8_ascii ascii] at hb
  obtain ⟨c, hc, rfl⟩ := List.mem_map.1 hb
  exact ascii c hc

/-- **C58**, for ASCII: a reader panics only because of a tag with `%XX` that are no UTF-8, and, if it is not lazy, because of a code in a
double-quoted scalar that is no character, or of a block scalar with an indentation indicator or without content. -/
theorem C58_ascii {op : ROp} (ascii : ∀ c ∈ text, c.toNat < 128) (h : NoPanic (history opts text ops))
    (hp : (op.run (borrowDrive opts (utf8 text)) (readerAfter opts text ops)).1 = .panic) :
    ∃ s s', Reach true { opts with extendable := false } (utf8 text) s ∧ Scan.scanNextToken { opts with extendable := false } s = (.panic, s') ∧
      ∃ q p r, utf8 text = q ++ s.buf ∧ s.buf = p ++ r ∧ (∃ n, Skips true s.buf n r) ∧ AsciiJam opts.lazy (s'.sc.context.level.getD 0) r := by
  obtain ⟨s, s', h1, ⟨q, hq⟩, -, h2, h⟩ := C58_reader h hp
  have ha := ascii_utf8 ascii
  obtain ⟨n, p, r, h3, h4, h5⟩ := ahead_ascii (hq ▸ ha).right h
  exact ⟨s, s', h1, h2, q, p, r, hq, h3, ⟨n, h4⟩, h5⟩

/-- A block scalar without content. -/
example : (∀ c ∈ "a: |\nb: c\n".toList, c.toNat < 128) ∧ NoPanic (history {} "a: |\nb: c\n".toList (List.replicate 5 .pop)) ∧
    (ROp.pop.run (borrowDrive {} (utf8 "a: |\nb: c\n".toList)) (readerAfter {} "a: |\nb: c\n".toList (List.replicate 5 .pop))).1 = .panic :=
  ⟨by decide +kernel, noPanic_of_decide (by decide +kernel), by decide +kernel⟩

/-! ### No cause, no panic -/

theorem noPanic_nil : NoPanic (history opts text []) := by
  intro x hx
  simp [history, runOps] at hx

theorem runOps_then {σ : Type} {drive : Drive σ} {a b : List ROp} {p : PeekReader σ} :
    (runOps drive (a ++ b) p).1 = (runOps drive a p).1 ++ (runOps drive b (runOps drive a p).2).1 := by
  induction a generalizing p with
  | nil => rfl
  | cons op a ih => simp [runOps, ih]

theorem noPanic_snoc {op : ROp} (h : NoPanic (history opts text ops))
    (hp : (op.run (borrowDrive opts (utf8 text)) (readerAfter opts text ops)).1 ≠ .panic) : NoPanic (history opts text (ops ++ [op])) := by
  intro x hx
  unfold history at hx
  rw [runOps_then] at hx
  simp only [List.mem_append] at hx
  rcases hx with hx | hx
  · exact h x hx
  · simp only [runOps, List.mem_singleton] at hx
    subst hx
    exact hp

/-- Calls do not panic, if the next one never does after some that do not. -/
theorem noPanic_all (h : ∀ ops op, NoPanic (history opts text ops) →
    (ROp.run (borrowDrive opts (utf8 text)) (readerAfter opts text ops) op).1 ≠ .panic)
    (ops : List ROp) : NoPanic (history opts text ops) := by
  have : ∀ n, NoPanic (history opts text (ops.take n)) := by
    intro n
    induction n with
    | zero => exact noPanic_nil
    | succ n ih =>
      rw [List.take_add_one]
      cases ops[n]? with
      | none => simpa using ih
      | some op => exact noPanic_snoc ih (h _ _ ih)
  simpa using this ops.length

/-- **C58**, the other way round: if no part of an ASCII text is such a tag, directive or scalar, then no call of a reader panics. -/
theorem C58_never (ascii : ∀ c ∈ text, c.toNat < 128) (hn : ∀ q r base, utf8 text = q ++ r → ¬ AsciiJam opts.lazy base r) (ops : List ROp) :
    NoPanic (history opts text ops) := by
  refine noPanic_all (fun ops op h hp => ?_) ops
  obtain ⟨s, s', -, -, q, p, r, h1, h2, -, h3⟩ := C58_ascii ascii h hp
  exact hn (q ++ p) r _ (by rw [h1, h2, List.append_assoc]) h3

theorem jam_sign {lazy : Bool} {base : Nat} {s : Str} (h : AsciiJam lazy base s) :
    ∃ b t, s = b :: t ∧ (b = b! '!' ∨ b = b! '%' ∨ lazy = false ∧ (b = 0x22 ∨ b = b! '|' ∨ b = b! '>')) := by
  cases h with
  | tag h =>
    cases h with
    | verbatim => exact ⟨_, _, rfl, .inl rfl⟩
    | suffix hh => cases hh <;> exact ⟨_, _, rfl, .inl rfl⟩
  | directive h => cases h; exact ⟨_, _, rfl, .inr (.inl rfl)⟩
  | code hl => exact ⟨_, _, rfl, .inr (.inr ⟨hl, .inl rfl⟩)⟩
  | digit hl hx => exact ⟨_, _, rfl, .inr (.inr ⟨hl, .inr hx⟩)⟩
  | empty hl hx => exact ⟨_, _, rfl, .inr (.inr ⟨hl, .inr hx⟩)⟩

/-- A text without tags, directives, double quotes and block scalars. -/
example (ops : List ROp) : NoPanic (history {} "- a: 'b'\n- [c, {d: &e f}]\n".toList ops) := by
  refine C58_never (by decide +kernel) (fun q r base h hj => ?_) ops
  obtain ⟨b, t, rfl, hb⟩ := jam_sign hj
  have hm : b ∈ utf8 "- a: 'b'\n- [c, {d: &e f}]\n".toList := by rw [h]; simp
  have : ∀ b ∈ utf8 "- a: 'b'\n- [c, {d: &e f}]\n".toList, ¬ (b = b! '!' ∨ b = b! '%' ∨ false = false ∧ (b = 0x22 ∨ b = b! '|' ∨ b = b! '>')) := by
    decide +kernel
  exact this b hm hb

end Yary
