import Verif.Proof.Scan.Texts

/-! # Where the tokens are -/

namespace Yary

open Spec
open Closed (Safe Finished)

/-- The rest of the text is a text. -/
def Plainly (s : SS) : Prop := validUtf8 s.buf = true

theorem closed_plainly : Closed Plainly where
  valid h := h
  flags _ h := h
  first h _ := h
  noKey h := h
  stale h _ := h
  save _ h := h
  move _ h1 := h1.valid
  node _ h1 _ _ _ := h1.valid
  plain h _ _ := h
  boundary h _ _ _ _ := h
  pop _ h _ := h
  roll _ _ _ h _ := h
  touch _ h _ := h
  rollKey _ _ h _ _ _ _ _ := h
  useKey h _ _ _ _ := h
  flowStart _ h := h
  flowEnd _ h _ _ := h

theorem static_plainly : Static Plainly := fun _ _ _ h => h

/-- The tokens pushed and the saved key are not after the current position. -/
structure Before (s : SS) : Prop where
  valid : validUtf8 s.buf = true
  out : ∀ e ∈ s.out, e.readAt ≤ s.sc.stats.read
  key : ∀ k, s.sc.key = some k → k.stats.read ≤ s.sc.stats.read

theorem Before.put' {s s' : SS} (h : Before s) (t : MaybeToken) {r : Nat} (hr : r ≤ s.sc.stats.read)
    (hb : s'.buf = s.buf) (hs : s'.sc.stats = s.sc.stats) (hk : s'.sc.key = s.sc.key)
    (ho : s'.out = s.out ++ [⟨t, r⟩]) : Before s' := by
  refine ⟨by rw [hb]; exact h.valid, ?_, by rw [hs, hk]; exact h.key⟩
  rw [ho, hs]
  intro e he
  rcases List.mem_append.1 he with he | he
  · exact h.out e he
  · simp only [List.mem_singleton] at he
    subst he
    exact hr

theorem Before.move' {s : SS} {c : Cur} (h : Before s) (hc : Hops s c) : Before (s.move c) := by
  have := hc.moves.read_le
  simp only at this
  exact ⟨hc.valid, fun e he => Nat.le_trans (h.out e he) this, fun k hk => Nat.le_trans (h.key k hk) this⟩

theorem closed_before : Closed Before where
  valid h := h.valid
  flags _ h := ⟨h.valid, h.out, h.key⟩
  first h _ := h.put' _ (Nat.le_refl _) rfl rfl rfl rfl
  noKey h := ⟨h.valid, h.out, fun k hk => by cases hk⟩
  stale h h1 := ⟨h.valid, h.out, fun k hk => by
    simp only [SS.setKey, Option.some.injEq] at hk
    subst hk
    have := h.key _ h1; exact this⟩
  save r h := ⟨h.valid, h.out, fun k hk => by
    simp only [SS.setKey, Option.some.injEq] at hk
    subst hk
    exact Nat.le_refl _⟩
  move h h1 := h.move' h1
  node h h1 _ _ _ := (h.move' h1).put' _ (Nat.le_refl _) rfl rfl rfl rfl
  plain h _ _ := h.put' _ (Nat.le_refl _) rfl rfl rfl rfl
  boundary h _ _ _ _ := h.put' _ (Nat.le_refl _) rfl rfl rfl rfl
  pop _ h _ := h.put' _ (Nat.le_refl _) rfl rfl rfl rfl
  roll _ _ _ h _ := h.put' _ (Nat.le_refl _) rfl rfl rfl rfl
  touch _ h _ := ⟨h.valid, h.out, h.key⟩
  rollKey _ _ h h1 _ _ _ _ := h.put' _ (h.key _ h1) rfl rfl rfl rfl
  useKey h h1 _ _ _ := h.put' _ (h.key _ h1) rfl rfl rfl rfl
  flowStart _ h := h.put' _ (Nat.le_refl _) rfl rfl rfl rfl
  flowEnd _ h _ _ := h.put' _ (Nat.le_refl _) rfl rfl rfl rfl

theorem static_before : Static Before := fun _ _ h hv => ⟨hv, h.out, h.key⟩

theorem Before.next {sc : Scanner} {buf : Str} {out : List TokenEntry} (h : Before ⟨sc, buf, out⟩) :
    Before ⟨sc, buf, []⟩ := ⟨h.valid, fun e he => (by cases he), h.key⟩

theorem mem_ins {l : List TokenEntry} {e x : TokenEntry} : x ∈ ins l e ↔ x ∈ l ∨ x = e := by
  rw [(ins_perm l e).mem_iff]; simp

theorem mem_deliver {l : List TokenEntry} {x : TokenEntry} : x ∈ deliver l ↔ x ∈ l :=
  (deliver_stable l).perm.mem_iff

/-- A token at the current position is delivered last. -/
theorem deliver_last {l : List TokenEntry} {e : TokenEntry} (h : ∀ x ∈ l, x.readAt ≤ e.readAt) :
    deliver (l ++ [e]) = deliver l ++ [e] := by
  rw [deliver_snoc]
  unfold ins
  rw [List.filter_eq_self.2, List.filter_eq_nil_iff.2]
  · intro x hx
    have := h x (mem_deliver.1 hx)
    simp only [decide_eq_true_eq]; omega
  · intro x hx
    have := h x (mem_deliver.1 hx)
    simpa using this

/-- None of the tokens ends the stream. -/
def NoEnd (D : List TokenEntry) (s : SS) : Prop :=
  validUtf8 s.buf = true ∧ ∀ e ∈ D ++ s.out, e.marker ≠ .StreamEnd

theorem NoEnd.put' {D : List TokenEntry} {s s' : SS} (h : NoEnd D s) {t : MaybeToken} {r : Nat}
    (hb : validUtf8 s'.buf = true) (ho : s'.out = s.out ++ [⟨t, r⟩]) (ht : t.marker ≠ .StreamEnd) : NoEnd D s' := by
  refine ⟨hb, ?_⟩
  rw [ho, ← List.append_assoc]
  intro e he
  rcases List.mem_append.1 he with he | he
  · exact h.2 e he
  · simp only [List.mem_singleton] at he
    subst he
    exact ht

theorem closed_noEnd (D : List TokenEntry) : Closed (NoEnd D) where
  valid h := h.1
  flags _ h := h
  first h _ := h.put' h.1 rfl (by simp [MaybeToken.marker, Marker.ofToken])
  noKey h := h
  stale h _ := h
  save _ h := h
  move h h1 := ⟨h1.valid, h.2⟩
  node h h1 _ h2 _ := h.put' (t := _) h1.valid rfl (by rcases h2 with h | h | h | h <;> rw [h] <;> simp)
  plain h _ h1 := h.put' h.1 rfl (by
    rcases h1 with h | h | h | h <;> subst h <;> simp [MaybeToken.marker, Marker.ofToken])
  boundary h _ h1 _ _ := h.put' h.1 rfl (by
    rcases h1 with h | h | h | h
    · subst h; simp [MaybeToken.marker, Marker.ofToken]
    · subst h; simp [MaybeToken.marker, Marker.ofToken]
    · obtain ⟨_, _, rfl⟩ := h; simp [MaybeToken.marker, Marker.ofToken]
    · obtain ⟨_, _, rfl⟩ := h; simp [MaybeToken.marker, Marker.ofToken])
  pop _ h _ := h.put' h.1 rfl (by simp [MaybeToken.marker, Marker.ofToken])
  roll _ _ map h _ := h.put' h.1 rfl (by cases map <;> simp [MaybeToken.marker, Marker.ofToken])
  touch _ h _ := h
  rollKey _ _ h _ _ _ _ _ := h.put' h.1 rfl (by simp [MaybeToken.marker, Marker.ofToken])
  useKey h _ _ _ _ := h.put' h.1 rfl (by simp [MaybeToken.marker, Marker.ofToken])
  flowStart map h := h.put' h.1 rfl (by cases map <;> simp [MaybeToken.marker, Marker.ofToken])
  flowEnd map h _ _ := h.put' h.1 rfl (by cases map <;> simp [MaybeToken.marker, Marker.ofToken])

theorem static_noEnd (D : List TokenEntry) : Static (NoEnd D) := fun _ _ h hv => ⟨hv, h.2⟩

theorem Static.and {I J : SS → Prop} (hI : Static I) (hJ : Static J) : Static fun s => I s ∧ J s :=
  fun n buf h hv => ⟨hI n buf h.1 hv, hJ n buf h.2 hv⟩

/-- The last of the tokens, and only it, ends the stream. -/
def Ended (D : List TokenEntry) (_ : Scanner) : Prop :=
  ∃ l e, D = l ++ [e] ∧ e.marker = .StreamEnd ∧ ∀ x ∈ l, x.marker ≠ .StreamEnd

/-- Before the end: positions are in order and there is no end yet. -/
def Running (D : List TokenEntry) (s : SS) : Prop := Before s ∧ NoEnd D s

theorem closed_running (D : List TokenEntry) : Closed (Running D) := closed_before.and (closed_noEnd D)
theorem static_running (D : List TokenEntry) : Static (Running D) :=
  Static.and static_before (static_noEnd D)

theorem running_next (D : List TokenEntry) (sc : Scanner) (buf : Str) (out : List TokenEntry)
    (h : Running D ⟨sc, buf, out⟩) : Running (D ++ deliver out) ⟨sc, buf, []⟩ := by
  refine ⟨h.1.next, h.1.valid, ?_⟩
  intro e he
  refine h.2.2 e ?_
  simpa [mem_deliver] using he

theorem running_last : AtEnd Running Ended := by
  intro D s h h1 h2 h3 h4
  rw [deliver_last (fun x hx => h.1.out x hx), ← List.append_assoc]
  refine ⟨_, _, rfl, rfl, ?_⟩
  intro x hx
  refine h.2.2 x ?_
  simpa [mem_deliver] using hx

theorem running_start (text : List Char) : Running [] ⟨{}, utf8 text, []⟩ :=
  ⟨⟨(validUtf8_iff _).2 ⟨text, rfl⟩, fun e he => (by cases he), fun k hk => (by cases hk)⟩,
    (validUtf8_iff _).2 ⟨text, rfl⟩, fun e he => (by cases he)⟩

end Yary
