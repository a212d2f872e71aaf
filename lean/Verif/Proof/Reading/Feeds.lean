import Verif.Proof.Lazy.Histories
import Verif.Proof.Scan.Asc
import Verif.Props.Complete

/-! # From the steps of the scanner to what a reader has ahead -/

namespace Yary.Reading

open Spec Chunk

variable {σ : Type} {drive : Drive σ}

/-! ## Batches -/

/-- The source provides the tokens, batch by batch. -/
inductive Feeds (drive : Drive σ) : σ → List TokenEntry → Prop where
  | nil (s : σ) : Feeds drive s []
  | batch {s s' : σ} {b l : List TokenEntry} (h : drive s = (.ok (), b, s')) (hb : b ≠ []) (t : Feeds drive s' l) :
      Feeds drive s (deliver b ++ l)

theorem deliver_length (b : List TokenEntry) : (deliver b).length = b.length := (deliver_stable b).perm.length_eq

theorem sortedVec_length {q : Queue TokenEntry} {l : List TokenEntry} (h : q.Rep l) : q.intoSortedVec.length = l.length := by
  have := Queue.drain_stable _ _ _ h (by rw [h.len]; omega : l.length ≤ q.len + 1)
  exact this.perm.length_eq

/-- What is queued, and then what the source provides, is ahead. -/
theorem ahead_of_feeds : ∀ (w : List TokenEntry) (p : PeekReader σ) (l : List TokenEntry), p.peeked = none → p.reader.exhausted = false →
    (∃ q, p.reader.queue.Rep q) → p.reader.queue.intoSortedVec = w → Feeds drive p.reader.src l → Ahead drive p (w ++ l) := by
  -- popping what is queued
  have key : ∀ (n : Nat) (w : List TokenEntry) (p : PeekReader σ) (l : List TokenEntry), (w ++ l).length = n → p.peeked = none → p.reader.exhausted = false →
      (∃ q, p.reader.queue.Rep q) → p.reader.queue.intoSortedVec = w → Feeds drive p.reader.src l → Ahead drive p (w ++ l) := by
    intro n
    induction n with
    | zero =>
      intro w p l hn _ _ _ _ _
      rw [List.length_eq_zero_iff.1 hn]
      trivial
    | succ n ih =>
      intro w p l hn hp hx ⟨q, hq⟩ hw hf
      -- the reader after taking from a nonempty queue
      have take : ∀ (r : Reader σ) (e : TokenEntry) (w' : List TokenEntry), r.exhausted = false → (∃ q, r.queue.Rep q) →
          r.queue.intoSortedVec = e :: w' →
          r.queue.pop.1 = some e ∧ (∃ q, r.queue.pop.2.Rep q) ∧ r.queue.pop.2.intoSortedVec = w' := by
        rintro r e w' hx' ⟨q', hq'⟩ hv
        obtain ⟨l', -, hl'⟩ := Queue.rep_pop hq'
        have h1 := intoSortedVec_pop r.queue
        rw [hv] at h1
        have h2 : r.queue.pop.1 = some e := by
          cases hpp : r.queue.pop.1 with
          | none =>
            exfalso
            unfold Queue.pop at hpp
            cases hpl : Queue.popLeast r.queue.heap with
            | none =>
              have := Queue.popLeast_none hpl
              rw [intoSortedVec_empty (by simp [Queue.isEmpty, this])] at hv
              cases hv
            | some x => rw [hpl] at hpp; simp at hpp
          | some x =>
            rw [hpp] at h1
            simp at h1
            rw [h1.1]
        rw [h2] at h1
        simp at h1
        exact ⟨h2, ⟨l', hl'⟩, h1.symm⟩
      cases w with
      | cons e w' =>
        obtain ⟨h1, h2, h3⟩ := take p.reader e w' hx ⟨q, hq⟩ hw
        have hne : p.reader.queue.isEmpty = false := by
          cases he : p.reader.queue.isEmpty with
          | false => rfl
          | true => rw [intoSortedVec_empty he] at hw; cases hw
        refine ⟨{ peeked := some e, reader := { p.reader with queue := p.reader.queue.pop.2 } }, ?_, ?_⟩
        · unfold PeekReader.peek
          simp [hp, Reader.isExhausted, hx, PeekReader.takeNext, hne, h1]
        · exact ih w' _ l (by simpa using hn) rfl hx h2 h3 hf
      | nil =>
        have hemp : p.reader.queue.isEmpty = true := by
          have h1 := sortedVec_length hq
          rw [hw] at h1
          have h2 := hq.len
          simp at h1
          rw [← h1] at h2
          simpa [Queue.isEmpty, Queue.len] using h2
        cases hf with
        | nil => simp at hn
        | @batch s s' b l' hd hb t =>
          have hl0 : q = [] := by
            have h1 := sortedVec_length hq
            rw [hw] at h1
            exact List.length_eq_zero_iff.1 h1.symm
          subst hl0
          have hrep := Queue.rep_foldl hq b
          rw [List.nil_append] at hrep
          have hst : (b.foldl Queue.push p.reader.queue).intoSortedVec = deliver b :=
            deliver_unique (Queue.drain_stable _ _ _ hrep (by rw [hrep.len]; omega))
          obtain ⟨e, w', hdb⟩ : ∃ e w', deliver b = e :: w' := by
            cases hdb : deliver b with
            | nil =>
              have := deliver_length b
              rw [hdb] at this
              exact absurd (List.length_eq_zero_iff.1 this.symm) hb
            | cons e w' => exact ⟨e, w', rfl⟩
          have hlen : p.reader.queue.len = 0 := by simpa [Queue.isEmpty, Queue.len] using hemp
          have hlen' : (b.foldl Queue.push p.reader.queue).len = b.length := by rw [foldl_push_length, hlen, Nat.zero_add]
          have hbl : b.length ≠ 0 := fun h => hb (List.length_eq_zero_iff.1 h)
          obtain ⟨h1, h2, h3⟩ := take { src := s', queue := b.foldl Queue.push p.reader.queue, exhausted := false } e w' rfl ⟨_, hrep⟩
            (hst.trans hdb)
          simp only at h1 h2 h3
          rw [List.nil_append, hdb, List.cons_append]
          refine ⟨{ peeked := some e, reader := { src := s', queue := (b.foldl Queue.push p.reader.queue).pop.2, exhausted := false } }, ?_, ?_⟩
          · unfold PeekReader.peek
            have hex : (p.reader.queue.len == (b.foldl Queue.push p.reader.queue).len) = false := by
              rw [hlen', hlen]
              simpa using fun h => hbl h.symm
            simp [hp, Reader.isExhausted, hx, PeekReader.takeNext, hemp, Reader.scanTokens, hd, h1, hex]
          · refine ih w' _ l' ?_ rfl rfl h2 h3 t
            rw [hdb] at hn
            simpa using hn
  intro w p l
  exact key _ w p l rfl

theorem ahead_new {src : σ} {l : List TokenEntry} (h : Feeds drive src l) : Ahead drive (PeekReader.new src) l :=
  ahead_of_feeds [] (PeekReader.new src) l rfl rfl ⟨[], Queue.rep_new⟩ (intoSortedVec_empty rfl) h

/-! ## Steps to the end -/

/-- Scanning token by token, from `s`, leads to the end of the stream, in the state `f`. -/
inductive Goes (opts : SFlags) : SS → SS → Prop where
  | last {s f : SS} (hd : s.sc.state ≠ .Done) (hs : Scan.scanNextToken opts s = (.ok (), f)) (hf : f.sc.state = .Done) : Goes opts s f
  | step {s s1 f : SS} (hd : s.sc.state ≠ .Done) (hs : Scan.scanNextToken opts s = (.ok (), s1)) (h : Goes opts s1 f) : Goes opts s f

variable {opts : SFlags}

/-- What was pushed before makes no difference, nor the offset. -/
theorem step_move (hx : opts.extendable = false) {sc : Scanner} {buf : Str} {out : List TokenEntry} {s1 : SS} (hv : validUtf8 buf = true)
    (hd : sc.state ≠ .Done) (h : Scan.scanNextToken opts ⟨sc, buf, out⟩ = (.ok (), s1)) (k : Nat) :
    Scan.scanNextToken opts ⟨{ sc with offset := k }, buf, out⟩ = (.ok (), { s1 with sc := { s1.sc with offset := k } }) := by
  have h2 := scanNextToken_follows (k := k) (pre := .same []) (s := ⟨sc, buf, out⟩) (subs_whole opts (fun _ _ => rfl) (fun _ => rfl)) trivial
  unfold Follows at h2
  rw [h] at h2
  obtain ⟨_, h2, -, -⟩ := h2
  simpa [SS.grow] using h2

theorem step_valid {s s1 : SS} (hv : validUtf8 s.buf = true) (hd : s.sc.state ≠ .Done)
    (h : Scan.scanNextToken opts s = (.ok (), s1)) : validUtf8 s1.buf = true ∧ (∃ p, s.buf = p ++ s1.buf) := by
  have h4 := (closed_rest s.buf s.sc.offset).scanNextToken (P := True) (opts := opts) (s := s) (.inl trivial) ⟨hv, ⟨[], rfl⟩, rfl, hd⟩ hd
  unfold Holds at h4
  rw [h] at h4
  rcases h4 with ⟨h4, -⟩ | ⟨-, h4⟩
  · exact ⟨h4.1, h4.2.1⟩
  · obtain @⟨s2, h2, -⟩ := h4
    exact ⟨h2.1, h2.2.1⟩

theorem Goes.running {s f : SS} (h : Goes opts s f) : s.sc.state ≠ .Done := by
  cases h <;> assumption

theorem Goes.move (hx : opts.extendable = false) {s f : SS} (h : Goes opts s f) (hv : validUtf8 s.buf = true) (k : Nat) :
    Goes opts { s with sc := { s.sc with offset := k } } { f with sc := { f.sc with offset := k } } := by
  induction h with
  | last hd hs hf => exact .last hd (step_move hx hv hd hs k) hf
  | step hd hs h ih => exact .step hd (step_move hx hv hd hs k) (ih (step_valid hv hd hs).1)

/-- Only what is pushed depends on the step, not on what was pushed before. -/
theorem step_split (hx : opts.extendable = false) {sc : Scanner} {buf : Str} {out : List TokenEntry} {s1 : SS} (hv : validUtf8 buf = true)
    (hd : sc.state ≠ .Done) (hs : Scan.scanNextToken opts ⟨sc, buf, out⟩ = (.ok (), s1)) :
    ∃ new, s1.out = out ++ new ∧ ∀ out', Scan.scanNextToken opts ⟨sc, buf, out'⟩ = (.ok (), ⟨s1.sc, s1.buf, out' ++ new⟩) := by
  have h4 := (closed_rest buf sc.offset).scanNextToken (P := True) (opts := opts) (s := ⟨sc, buf, []⟩) (.inl trivial) ⟨hv, ⟨[], rfl⟩, rfl, hd⟩ hd
  have h4' := (closed_rest buf sc.offset).scanNextToken (P := True) (opts := opts) (s := ⟨sc, buf, out⟩) (.inl trivial) ⟨hv, ⟨[], rfl⟩, rfl, hd⟩ hd
  have ho : s1.sc.offset = sc.offset := by
    unfold Holds at h4'
    rw [hs] at h4'
    rcases h4' with ⟨h, -⟩ | ⟨-, h⟩
    · exact h.2.2.1
    · obtain @⟨s2, h2, -⟩ := h
      exact h2.2.2.1
  obtain ⟨n, hn⟩ : ∃ n, s1.out = out ++ n := by
    have h2 := scanNextToken_follows (k := sc.offset) (pre := .same out) (s := ⟨sc, buf, []⟩) (subs_whole opts (fun _ _ => rfl) (fun _ => rfl)) trivial
    have h3 := scanNextToken_calm hx ⟨sc, buf, []⟩
    unfold Follows at h2
    unfold Holds at h4
    have hg : SS.grow [] sc.offset (.same out) ⟨sc, buf, []⟩ = ⟨sc, buf, out⟩ := by simp [SS.grow]
    rw [hg, hs] at h2
    generalize Scan.scanNextToken opts ⟨sc, buf, []⟩ = r at h2 h3 h4
    obtain ⟨x, s1⟩ := r
    cases x with
    | ok u =>
      obtain ⟨_, h2, -, -⟩ := h2
      injection h2 with _ h2
      exact ⟨s1.out, by rw [h2]; simp [SS.grow]⟩
    | err e =>
      rcases h2 with h2 | h2
      · exact absurd (by rw [h2]) h3
      · injection h2 with h2; cases h2
    | panic => injection h2 with h2; cases h2
    | diverge => exact h4.elim
  refine ⟨n, hn, fun out' => ?_⟩
  obtain ⟨fsc, fbuf, fout⟩ := s1
  simp only at hn ho
  subst hn
  have := Deferred.step_shift hx hv hd hs out'
  rw [this, ← ho]

/-- Only what is pushed later depends on the steps. -/
theorem Goes.shift (hx : opts.extendable = false) {sc : Scanner} {buf : Str} {out : List TokenEntry} {f : SS} (h : Goes opts ⟨sc, buf, out⟩ f)
    (hv : validUtf8 buf = true) : ∃ new, f.out = out ++ new ∧ ∀ out', Goes opts ⟨sc, buf, out'⟩ ⟨f.sc, f.buf, out' ++ new⟩ := by
  generalize hs0 : (⟨sc, buf, out⟩ : SS) = s at h
  induction h generalizing sc buf out with
  | @last s f hd hs hf =>
    subst hs0
    obtain ⟨n, h1, h2⟩ := step_split hx hv hd hs
    exact ⟨n, h1, fun out' => .last hd (h2 out') hf⟩
  | @step s s1 f hd hs h ih =>
    subst hs0
    obtain ⟨n, h1, h2⟩ := step_split hx hv hd hs
    have hv1 := (step_valid hv hd hs).1
    obtain ⟨n', h3, h4⟩ := ih hv1 rfl
    refine ⟨n ++ n', by rw [h3, h1, List.append_assoc], fun out' => .step hd (h2 out') ?_⟩
    have := h4 (out' ++ n)
    rwa [List.append_assoc] at this

/-- One call of the scanner, when the steps lead to the end. -/
theorem scanLoop_goes (hx : opts.extendable = false) {base : Str} : ∀ fuel (sc : Scanner) (out : List TokenEntry) (f : SS),
    Goes opts ⟨sc, base.drop sc.offset, out⟩ f → isBoundary base sc.offset = true → validUtf8 (base.drop sc.offset) = true →
    (∃ sc' out', scanLoop opts base fuel sc out = (.diverge, sc', out')) ∨
    (∃ sc', scanLoop opts base fuel sc out = (.ok (), sc', f.out) ∧ sc'.state = .Done) ∨
    ∃ sc' out' f', scanLoop opts base fuel sc out = (.ok (), sc', out') ∧ Goes opts ⟨sc', base.drop sc'.offset, out'⟩ f' ∧ f'.out = f.out := by
  intro fuel
  induction fuel with
  | zero => intro sc out f _ _ _; exact .inl ⟨_, _, rfl⟩
  | succ fuel ih =>
    intro sc out f hg hb hv
    rw [scanLoop]
    by_cases hgo : (decide (sc.state ≠ .Done) && (out.isEmpty || sc.keyPossible)) = true
    · rw [if_pos hgo, if_pos hb]
      have next : ∀ s1 : SS, Scan.scanNextToken opts ⟨sc, base.drop sc.offset, out⟩ = (.ok (), s1) →
          base.drop (base.length - s1.buf.length) = s1.buf ∧ isBoundary base (base.length - s1.buf.length) = true ∧ validUtf8 s1.buf = true := by
        intro s1 hs
        obtain ⟨h1, p, hp⟩ := step_valid hv hg.running hs
        simp only at hp
        have hsuf : ∃ q, base = q ++ s1.buf :=
          ⟨base.take sc.offset ++ p, by rw [List.append_assoc, ← hp, List.take_append_drop]⟩
        refine ⟨?_, boundary_of_drop h1 hsuf, h1⟩
        obtain ⟨q, hq⟩ := hsuf
        rw [hq]; simp
      cases hg with
      | last hd hs hf =>
        rw [hs]
        simp only
        cases fuel with
        | zero => exact .inl ⟨_, _, rfl⟩
        | succ fuel =>
          refine .inr (.inl ⟨{ f.sc with offset := base.length - f.buf.length }, ?_, hf⟩)
          exact scanLoop_done (sc := { f.sc with offset := base.length - f.buf.length }) hf fuel f.out
      | @step _ s1 _ hd hs h =>
        obtain ⟨e1, e2, e3⟩ := next s1 hs
        rw [hs]
        simp only
        have h' := h.move hx e3 (base.length - s1.buf.length)
        have := ih { s1.sc with offset := base.length - s1.buf.length } s1.out { f with sc := { f.sc with offset := base.length - s1.buf.length } }
          (by simp only; rw [e1]; exact h') e2 (by simp only; rw [e1]; exact e3)
        exact this
    · rw [if_neg hgo]
      exact .inr (.inr ⟨sc, out, f, rfl, hg, rfl⟩)

theorem stable_append {l o l' o' : List TokenEntry} (h : IsStableSort l o) (h' : IsStableSort l' o') (hs : Sorted (o ++ o')) :
    IsStableSort (l ++ l') (o ++ o') := by
  refine ⟨h.perm.append h'.perm, hs.imp (fun {a b} hab => ?_), fun x => ?_⟩
  · rw [compare_entry, Ne, Nat.compare_eq_lt]
    omega
  · rw [List.filter_append, List.filter_append, h.stable x, h'.stable x]

/-- All tokens, in batches. -/
theorem feeds_of_goes (hx : opts.extendable = false) {base : Str} (hvb : validUtf8 base = true) : ∀ (n : Nat) (sc : Scanner) (D : List TokenEntry) (f : SS),
    sc.left base = n → isBoundary base sc.offset = true → Asc D ⟨sc, base.drop sc.offset, []⟩ →
    Goes opts ⟨sc, base.drop sc.offset, []⟩ f → ∃ T, Feeds (borrowDrive opts base) sc T ∧ Sorted (D ++ T) ∧ IsStableSort f.out T := by
  intro n
  induction n using Nat.strongRecOn with
  | _ n ih =>
    intro sc D f hn hb hA hg
    have hv : validUtf8 (base.drop sc.offset) = true := hA.before.valid
    have hE := scanTokens_ends (P := True) (opts := opts) (closed_asc D) (fun n h => asc_noOffset D n h) (.inl trivial) hvb hb hA hg.running
    have hG := scanLoop_goes hx (base.length + 3) sc [] f hg hb hv
    have ho : ({ opts with extendable := false } : SFlags) = opts := by rw [← hx]
    have hdr : ∀ sc' out, scanTokens opts base sc = (.ok (), sc', out) → borrowDrive opts base sc = (.ok (), out, sc') := by
      intro sc' out h
      unfold borrowDrive
      rw [ho, h]
    rcases hG with ⟨sc', out', h⟩ | ⟨sc', h, hd⟩ | ⟨sc', out', f', h, hg', hf'⟩
    · unfold scanTokens at hE
      rw [h] at hE
      exact hE.elim
    · have hdr' := hdr _ _ h
      unfold scanTokens at hE
      rw [h] at hE
      obtain ⟨-, h1 | h1⟩ := hE
      · exact absurd hd h1.2.1
      · generalize hss : (⟨sc', base.drop sc'.offset, f.out⟩ : SS) = ss at h1
        obtain @⟨s2, h2, h3, h4, h5, h6⟩ := h1
        have hlast := asc_last D s2 h2 h3 h4 h5 h6
        have hout : f.out = s2.out ++ [⟨.Token .StreamEnd, s2.sc.stats.read⟩] := by
          have := congrArg SS.out hss
          exact this
        refine ⟨deliver f.out ++ [], .batch hdr' (by rw [hout]; simp) (.nil _), ?_, ?_⟩
        · rw [List.append_nil, hout]; exact hlast
        · rw [List.append_nil]; exact deliver_stable _
    · have hdr' := hdr _ _ h
      unfold scanTokens at hE
      rw [h] at hE
      obtain ⟨hb', h1 | h1⟩ := hE
      · obtain ⟨hA', hs', hne, hk, hlt⟩ := h1
        have hlt : sc'.left base < sc.left base := by
          rcases hlt with h | ⟨-, h⟩
          · exact h
          · exact absurd h hne
        obtain ⟨new, hnew, hgo⟩ := hg'.shift hx hA'.before.valid
        obtain ⟨T, hT, hS, hst⟩ := ih _ (by rw [← hn]; exact hlt) sc' (D ++ deliver out') _ rfl hb' (asc_next D sc' _ out' hA' hk) (hgo [])
        refine ⟨deliver out' ++ T, .batch hdr' hne hT, by rw [← List.append_assoc]; exact hS, ?_⟩
        rw [← hf', hnew]
        refine stable_append (deliver_stable _) ?_ ?_
        · simpa using hst
        · rw [List.append_assoc] at hS
          exact (List.pairwise_append.1 hS).2.1
      · generalize hss : (⟨sc', base.drop sc'.offset, out'⟩ : SS) = ss at h1
        obtain @⟨s2, h2, h3, h4, h5, h6⟩ := h1
        have : sc'.state = .Done := by
          have := congrArg (fun s : SS => s.sc.state) hss
          exact this
        exact absurd this hg'.running

/-- When the steps of the scanner lead to the end, a reader has all the tokens ahead, in order. -/
theorem ahead_of_goes (hx : opts.extendable = false) {base : Str} (hv : validUtf8 base = true) {f : SS} (h : Goes opts ⟨{}, base, []⟩ f) :
    Ahead (borrowDrive opts base) (PeekReader.new {}) (deliver f.out) := by
  obtain ⟨text, rfl⟩ := (validUtf8_iff base).1 hv
  obtain ⟨T, hT, -, hst⟩ := feeds_of_goes hx hv _ {} [] f rfl (by simp [isBoundary]) (asc_start text) h
  rw [← deliver_unique hst]
  exact ahead_new hT

end Yary.Reading
