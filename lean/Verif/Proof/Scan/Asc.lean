import Verif.Proof.Scan.Order

/-! # The order of the tokens -/

namespace Yary

open Spec

/-- The positions do not decrease. -/
def Sorted (l : List TokenEntry) : Prop := l.Pairwise fun a b => a.readAt ≤ b.readAt

/-- The tokens delivered are in order, and no token still to be delivered is before them. -/
structure Asc (D : List TokenEntry) (s : SS) : Prop where
  before : Before s
  sorted : Sorted D
  bound : ∃ L, (∀ e ∈ D, e.readAt ≤ L) ∧ (∀ e ∈ s.out, L ≤ e.readAt) ∧ L ≤ s.sc.stats.read ∧
    ∀ k, s.sc.key = some k → k.possible.allowed = true → L ≤ k.stats.read

theorem Asc.same {D : List TokenEntry} {s s' : SS} (h : Asc D s) (hB : Before s')
    (hs : s.sc.stats.read ≤ s'.sc.stats.read) (ho : s'.out = s.out)
    (hk : ∀ k, s'.sc.key = some k → k.possible.allowed = true →
      s.sc.key = some k ∨ s.sc.stats.read ≤ k.stats.read) : Asc D s' := by
  obtain ⟨L, h1, h2, h3, h4⟩ := h.bound
  refine ⟨hB, h.sorted, L, h1, by rw [ho]; exact h2, Nat.le_trans h3 hs, fun k hk' ha => ?_⟩
  rcases hk k hk' ha with h | h
  · exact h4 k h ha
  · exact Nat.le_trans h3 h

theorem Asc.put' {D : List TokenEntry} {s s' : SS} (h : Asc D s) (hB : Before s') {t : MaybeToken} {r : Nat}
    (hs : s.sc.stats.read ≤ s'.sc.stats.read) (ho : s'.out = s.out ++ [⟨t, r⟩])
    (hk : s'.sc.key = s.sc.key)
    (hr : s.sc.stats.read ≤ r ∨ ∃ k, s.sc.key = some k ∧ k.possible.allowed = true ∧ r = k.stats.read) :
    Asc D s' := by
  obtain ⟨L, h1, h2, h3, h4⟩ := h.bound
  refine ⟨hB, h.sorted, L, h1, ?_, Nat.le_trans h3 hs, by rw [hk]; exact h4⟩
  rw [ho]
  intro e he
  rcases List.mem_append.1 he with he | he
  · exact h2 e he
  · simp only [List.mem_singleton] at he
    subst he
    rcases hr with hr | ⟨k, hk, ha, rfl⟩
    · exact Nat.le_trans h3 hr
    · exact h4 k hk ha

theorem closed_asc (D : List TokenEntry) : Closed (Asc D) where
  valid h := h.before.valid
  flags b h := h.same (closed_before.flags b h.before) (Nat.le_refl _) rfl fun k hk _ => .inl hk
  first h h1 := h.put' (closed_before.first h.before h1) (Nat.le_refl _) rfl rfl (.inl (Nat.le_refl _))
  noKey h := h.same (closed_before.noKey h.before) (Nat.le_refl _) rfl fun k hk _ => by cases hk
  stale h h1 := h.same (closed_before.stale h.before h1) (Nat.le_refl _) rfl fun k hk ha => by
    simp only [SS.setKey, Option.some.injEq] at hk
    subst hk
    simp [KeyPossible.allowed] at ha
  save r h := h.same (closed_before.save r h.before) (Nat.le_refl _) rfl fun k hk _ => by
    simp only [SS.setKey, Option.some.injEq] at hk
    subst hk
    exact .inr (Nat.le_refl _)
  move h h1 := h.same (closed_before.move h.before h1) h1.moves.read_le rfl fun k hk _ => .inl hk
  node h h1 h2 h3 h4 := h.put' (closed_before.node h.before h1 h2 h3 h4) h1.moves.read_le rfl rfl (.inl h1.moves.read_le)
  plain h h1 h2 := h.put' (closed_before.plain h.before h1 h2) (Nat.le_refl _) rfl rfl (.inl (Nat.le_refl _))
  boundary h h1 h2 h3 h4 := h.put' (closed_before.boundary h.before h1 h2 h3 fun hd => (h4 hd).imp fun _ h => ⟨h.1.before, h.2⟩) (Nat.le_refl _) rfl rfl
    (.inl (Nat.le_refl _))
  pop i h h1 := h.put' (closed_before.pop i h.before h1) (Nat.le_refl _) rfl rfl (.inl (Nat.le_refl _))
  roll a b c h h1 := h.put' (closed_before.roll a b c h.before h1) (Nat.le_refl _) rfl rfl (.inl (Nat.le_refl _))
  touch a h h1 := h.same (closed_before.touch a h.before h1) (Nat.le_refl _) rfl fun k hk _ => .inl hk
  rollKey a b h h1 h2 h3 h4 h5 := h.put' (closed_before.rollKey a b h.before h1 h2 h3 h4 h5) (Nat.le_refl _) rfl rfl
    (.inr ⟨_, h1, h2, rfl⟩)
  useKey h h1 h2 h3 h4 := h.put' (closed_before.useKey h.before h1 h2 h3 h4) (Nat.le_refl _) rfl rfl
    (.inr ⟨_, h1, h2, rfl⟩)
  flowStart m h := h.put' (closed_before.flowStart m h.before) (Nat.le_refl _) rfl rfl (.inl (Nat.le_refl _))
  flowEnd m h h1 h2 := h.put' (closed_before.flowEnd m h.before h1 h2) (Nat.le_refl _) rfl rfl (.inl (Nat.le_refl _))

theorem asc_append {D : List TokenEntry} {s : SS} (h : Asc D s) : Sorted (D ++ deliver s.out) := by
  obtain ⟨L, h1, h2, -⟩ := h.bound
  refine List.pairwise_append.2 ⟨h.sorted,
    (deliver_stable s.out).sorted.imp (fun {a b} hab => ?_), fun a ha b hb => ?_⟩
  · rw [compare_entry, Ne, Nat.compare_eq_lt] at hab
    omega
  · exact Nat.le_trans (h1 a ha) (h2 b (mem_deliver.1 hb))

theorem asc_noOffset (D : List TokenEntry) : NoOffset (Asc D) := fun _ h =>
  ⟨⟨h.before.valid, h.before.out, h.before.key⟩, h.sorted, h.bound⟩

theorem asc_next (D : List TokenEntry) (sc : Scanner) (buf : Str) (out : List TokenEntry)
    (h : Asc D ⟨sc, buf, out⟩) (hk : sc.keyPossible = false) : Asc (D ++ deliver out) ⟨sc, buf, []⟩ := by
  refine ⟨h.before.next, asc_append h, sc.stats.read, ?_, fun e he => (by cases he), Nat.le_refl _, ?_⟩
  · intro e he
    rcases List.mem_append.1 he with he | he
    · obtain ⟨L, h1, -, h3, -⟩ := h.bound
      exact Nat.le_trans (h1 e he) h3
    · exact h.before.out e (mem_deliver.1 he)
  · intro k hk' ha
    simp only at hk'
    simp [Scanner.keyPossible, hk', ha] at hk

theorem asc_last : AtEnd Asc fun D _ => Sorted D := by
  intro D s h h1 h2 h3 h4
  exact asc_append (s := ⟨s.sc, s.buf, s.out ++ [⟨.Token .StreamEnd, s.sc.stats.read⟩]⟩)
    (h.put' (h.before.put' _ (Nat.le_refl _) rfl rfl rfl rfl) (Nat.le_refl _) rfl rfl (.inl (Nat.le_refl _)))

theorem asc_start (text : List Char) : Asc [] ⟨{}, utf8 text, []⟩ :=
  ⟨(running_start text).1, List.Pairwise.nil, 0, fun e he => (by cases he), fun e he => (by cases he),
    Nat.le_refl _, fun k hk => (by cases hk)⟩

end Yary
