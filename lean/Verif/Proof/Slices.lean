import Verif.Proof.Heap
import Verif.Proof.Chunk.Unread

/-! # The texts of deferred scalars are parts of the text that was scanned -/

namespace Yary.Slices

open Spec

variable {room : Mem → Nat → Bool} {size : Nat → Nat → Nat} {opts : SFlags}

/-- The rest is a text and the end of `base`, and the tokens are from `base`. -/
structure Parts (base : Str) (s : SS) : Prop where
  valid : validUtf8 s.buf = true
  rest : ∃ p, base = p ++ s.buf
  out : ∀ e ∈ s.out, PartOf base e.wrap

theorem Parts.put' {base : Str} {s s' : SS} (h : Parts base s) {t : MaybeToken} {r : Nat} (hb : s'.buf = s.buf) (ho : s'.out = s.out ++ [⟨t, r⟩])
    (ht : PartOf base t) : Parts base s' := by
  refine ⟨hb ▸ h.valid, hb ▸ h.rest, ?_⟩
  rw [ho]
  intro e he
  rcases List.mem_append.1 he with he | he
  · exact h.out e he
  · cases List.mem_singleton.1 he
    exact ht

theorem Parts.move' {base : Str} {s : SS} {c : Cur} (h : Parts base s) (h1 : Hops s c) : Parts base (s.move c) := by
  obtain ⟨-, ⟨p, hp⟩, ho⟩ := h
  obtain ⟨q, hq⟩ := h1.moves.suffix
  exact ⟨h1.valid, ⟨p ++ q, by rw [hp]; simp only at hq; rw [hq]; simp [SS.move]⟩, ho⟩

theorem closed_parts (base : Str) : Closed (Parts base) where
  valid h := h.valid
  flags _ h := ⟨h.valid, h.rest, h.out⟩
  first h _ := h.put' rfl rfl trivial
  noKey h := ⟨h.valid, h.rest, h.out⟩
  stale h _ := ⟨h.valid, h.rest, h.out⟩
  save _ h := ⟨h.valid, h.rest, h.out⟩
  move h h1 := h.move' h1
  node {s c t} h h1 _ _ h2 := (h.move' h1).put' rfl rfl (by
    cases t with
    | Token _ => trivial
    | Deferred l =>
      obtain ⟨p, q, hp⟩ := h2
      obtain ⟨p', hp'⟩ := h.rest
      exact ⟨p' ++ p, q, by rw [hp', hp]; simp⟩)
  plain h _ _ := h.put' rfl rfl trivial
  boundary h _ _ _ _ := h.put' rfl rfl trivial
  pop _ h _ := h.put' rfl rfl trivial
  roll _ _ _ h _ := h.put' rfl rfl trivial
  touch _ h _ := ⟨h.valid, h.rest, h.out⟩
  rollKey _ _ h _ _ _ _ _ := h.put' rfl rfl trivial
  useKey h _ _ _ _ := h.put' rfl rfl trivial
  flowStart _ h := h.put' rfl rfl trivial
  flowEnd _ h _ _ := h.put' rfl rfl trivial

/-- What one call of the scanner adds is from its text. -/
theorem scanTokens_parts {base : Str} {sc sc' : Scanner} (hv : validUtf8 base = true) (hb : isBoundary base sc.offset = true)
    {r : Out ScanError Unit} {out : List TokenEntry} (hs : scanTokens opts base sc = (r, sc', out)) (hr : r ≠ .panic) :
    ∀ e ∈ out, PartOf base e.wrap := by
  by_cases hd : sc.state = .Done
  · rw [scanTokens, Chunk.scanLoop_stop (.inl hd)] at hs
    cases hs
    intro e he
    cases he
  · have hv' := validUtf8_drop hv hb
    have hend : Ends True (Parts base) base sc [] (scanTokens opts base sc) := by
      refine scanLoop_ends (closed_parts base) (fun _ h => ⟨h.valid, h.rest, h.out⟩) (.inl trivial) _ _ _ hb hv'
        ⟨hv', ⟨base.take sc.offset, (List.take_append_drop _ _).symm⟩, fun e he => by cases he⟩ hd ?_
      unfold Scanner.left
      have := List.length_drop (i := sc.offset) (l := base)
      split <;> (try split) <;> omega
    rw [hs] at hend
    cases r with
    | ok u =>
      obtain ⟨-, h | h⟩ := hend
      · exact h.1.out
      · generalize he : (⟨sc', base.drop sc'.offset, out⟩ : SS) = s' at h
        have ho : out = s'.out := by rw [← he]
        rw [ho]
        cases h with
        | intro h => exact (h.put' (s' := SS.put _ (.Token .StreamEnd) _) rfl rfl trivial).out
    | err e =>
      obtain ⟨⟨buf, h, -⟩, -⟩ := hend
      exact h.out
    | panic => exact absurd rfl hr
    | diverge => exact hend.elim

/-- On a text. -/
theorem borrow_parts {text : List Char} {ops : List ROp} (hn : NoPanic (history opts text ops)) :
    ∀ e ∈ handed (history opts text ops), PartOf (utf8 text) e.wrap := by
  have hk := (reader_kept (drive := borrowDrive opts (utf8 text)) (J := fun sc D => Chunk.Sound ⟨utf8 text, 0, [], true⟩ sc ∧
      ∀ e ∈ D, PartOf (utf8 text) e.wrap) (K := fun r => r ≠ .panic) (src := {}) (fun sc D o b sc' hJ hd hK => by
    unfold borrowDrive at hd
    generalize hs : scanTokens { opts with extendable := false } (utf8 text) sc = r at hd
    obtain ⟨x, sc1, out⟩ := r
    have hx : x ≠ .panic := by
      rintro rfl
      cases hd
      exact hK rfl
    have h1 := (Chunk.scanTokens_sound (opts := opts) hJ.1 hs hx).1
    have h2 := scanTokens_parts hJ.1.valid hJ.1.boundary hs hx
    have hfin : ∀ e ∈ D ++ deliver out, PartOf (utf8 text) e.wrap := by
      intro e he
      rcases List.mem_append.1 he with he | he
      · exact hJ.2 e he
      · exact h2 e ((deliver_stable out).perm.mem_iff.1 he)
    cases x with
    | ok u => cases hd; exact ⟨h1, hfin⟩
    | err u => cases hd; exact ⟨h1, hfin⟩
    | panic => exact absurd rfl hx
    | diverge => cases hd; exact ⟨h1, hfin⟩)
    ⟨⟨(validUtf8_iff _).2 ⟨text, rfl⟩, rfl, fun h => by cases h⟩, fun e he => by cases he⟩ ops (fun x hx h => by
      refine hn x hx ?_
      generalize x.2 = y at h
      cases y <;> simp [Out.void] at h ⊢)).2
  intro e he
  exact hk.2 e (List.mem_append_left _ (List.mem_append_left _ he))

/-- All the tokens of the views are from their texts. -/
def Whole (o : Holder) : Prop := ∀ v ∈ o.views, ∀ e ∈ v.tokens, PartOf v.text e.wrap

theorem loop_whole : ∀ fuel (o : Holder) (sc : Scanner) (out : List TokenEntry), Heap.Sound o → Chunk.Sound (Heap.erase o) sc → Whole o →
    (heldLoop room size opts fuel o sc out).1 ≠ .panic →
    Chunk.Sound (Heap.erase (heldLoop room size opts fuel o sc out).2.2.1) (heldLoop room size opts fuel o sc out).2.2.2 ∧
      Whole (heldLoop room size opts fuel o sc out).2.2.1
  | 0, o, sc, out, h, hc, hw => fun _ => ⟨hc, hw⟩
  | fuel + 1, o, sc, out, h, hc, hw => by
    rw [heldLoop]
    generalize hs : scanTokens { opts with extendable := !o.exhausted } (o.mem.load o.head).1 sc = r
    obtain ⟨x, sc1, more⟩ := r
    have hgive : x ≠ .panic → Chunk.Sound (Heap.erase (o.give more)) sc1 ∧ Whole (o.give more) ∧ (x = .err .Extend → o.exhausted = false) := by
      intro hx
      have h1 := Chunk.scanTokens_sound (opts := opts) hc hs hx
      refine ⟨by rw [(Heap.give_sound h more).2]; exact h1.1, fun v hv => ?_, h1.2.2.2⟩
      rcases List.mem_append.1 hv with hv | hv
      · exact hw v hv
      · cases List.mem_singleton.1 hv
        exact scanTokens_parts hc.valid hc.boundary hs hx
    cases x with
    | ok u => exact fun _ => ⟨(hgive (fun h => by cases h)).1, (hgive (fun h => by cases h)).2.1⟩
    | panic => exact fun h => absurd rfl h
    | diverge => exact fun _ => ⟨(hgive (fun h => by cases h)).1, (hgive (fun h => by cases h)).2.1⟩
    | err e =>
      obtain ⟨g1, g2, g3⟩ := hgive (fun h => by cases h)
      cases e
      case Extend =>
        have k := Chunk.refresh_sound (size := size) g1 (by rw [(Heap.give_sound h more).2]; exact g3 rfl)
        obtain ⟨h1, h2, h3⟩ := Heap.refresh_sound (room := room) (size := size) (Heap.give_sound h more).1 sc1.offset
        rw [h2] at k
        have hw' : Whole ((o.give more).refresh room size sc1.offset).2 := by unfold Whole; rw [h3]; exact g2
        simp only
        generalize (o.give more).refresh room size sc1.offset = r at h1 hw' k ⊢
        obtain ⟨x, o2⟩ := r
        cases x with
        | ok u => exact loop_whole fuel o2 _ _ h1 k.1 hw'
        | err e => exact fun _ => ⟨k.1, hw'⟩
        | panic => exact k.elim
        | diverge => exact k.elim
      all_goals exact fun _ => ⟨g1, g2⟩

/-- After a history of calls. -/
theorem after_whole {src : Source} {ops : List ROp} (hn : NoPanic (heldHistory room size opts src ops)) :
    Whole (heldAfter room size opts src ops) := by
  have hk := (reader_kept (drive := heldDrive room size opts) (J := fun s _ => Heap.Sound s.1 ∧ Chunk.Sound (Heap.erase s.1) s.2 ∧ Whole s.1)
    (K := fun r => r ≠ .panic) (src := ({ source := src }, {})) (fun s D o b s' hJ hd hK => by
      have h1 := (Heap.drive_sound (room := room) (size := size) (opts := opts) hJ.1 [] (fun e he => by cases he)).1
      have h2 := loop_whole (room := room) (size := size) (opts := opts) (s.1.source.reads + 3) s.1 s.2 [] hJ.1 hJ.2.1 hJ.2.2
      rw [hd] at h1
      rw [show heldLoop room size opts (s.1.source.reads + 3) s.1 s.2 [] = (o, b, s') from hd] at h2
      exact ⟨h1, h2 hK⟩)
    ⟨.start src, ⟨rfl, rfl, fun h => by cases h⟩, fun v hv => by cases hv⟩ ops (fun x hx h => by
      refine hn x hx ?_
      generalize x.2 = y at h
      cases y <;> simp [Out.void] at h ⊢)).2
  exact hk.2.2

end Yary.Slices
