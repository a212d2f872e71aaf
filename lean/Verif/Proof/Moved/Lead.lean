import Verif.Proof.Moved.Scan
import Verif.Proof.Scan.Utf8

/-! # Empty lines before a text -/

namespace Yary.Moved

open Yary.Shift (Alike)
open Spec

variable {opts : SFlags} {w l : Nat}

theorem boundary_lead {W B : Str} (hv : validUtf8 B = true) (p : Nat) : isBoundary (W ++ B) (p + W.length) = isBoundary B p := by
  have hg : (W ++ B)[p + W.length]? = B[p]? := by
    rw [List.getElem?_append_right (by omega)]
    congr 1
    omega
  unfold isBoundary
  rw [hg, List.length_append]
  by_cases hp : p = 0
  · subst hp
    cases B with
    | nil => simp
    | cons b t =>
      have := validUtf8_head hv
      have hb : (decide (b < 0x80) || decide (0xC0 ≤ b)) = true := by simpa using this
      simp only [Nat.zero_add, List.getElem?_cons_zero, hb, Bool.or_true]
  · have h1 : (p + W.length == 0) = false := by simp; omega
    have h2 : (p == 0) = false := by simpa using hp
    rw [h1, h2]
    cases B[p]? with
    | none =>
      rw [Bool.eq_iff_iff]
      simp
      omega
    | some b => rfl

theorem eatLoop_mv : ∀ fuel {chomp : Bool} {c c' : Cur}, Mv w l c c' → Alike (Mv w l) (eatWsLoop opts true fuel chomp c) (eatWsLoop opts true fuel chomp c')
  | 0, _, _, _, _ => trivial
  | fuel + 1, chomp, c, c', h => by
    rw [eatWsLoop, eatWsLoop, h.1]
    refine Alike.bind (Alike.refl (fun _ => rfl) _) fun _ _ _ => ?_
    split
    · exact Alike.bind (adv_mv h 1) fun a b h => eatLoop_mv fuel h
    · split
      · exact Alike.bind (line_mv h) fun a b h => eatLoop_mv fuel h
      · split
        · exact Alike.bind (adv_mv h 1) fun a b h => eatLoop_mv fuel h
        · split
          · exact Alike.bind (adv_mv h 1) fun a b h => eatLoop_mv fuel h
          · exact h

theorem bind_more {α β : Type} {x : Out ScanError α} {f g : α → Out ScanError β} (h : (x >>= f) ≠ .diverge) (hf : ∀ a, f a ≠ .diverge → g a = f a) :
    (x >>= g) = (x >>= f) := by
  cases x with
  | ok a => exact hf a h
  | err e => rfl
  | panic => rfl
  | diverge => rfl

theorem eatLoop_more : ∀ fuel k {chomp : Bool} {c : Cur}, eatWsLoop opts true fuel chomp c ≠ .diverge →
    eatWsLoop opts true (fuel + k) chomp c = eatWsLoop opts true fuel chomp c
  | 0, _, _, _, h => absurd rfl h
  | fuel + 1, k, chomp, c, h => by
    rw [show fuel + 1 + k = (fuel + k) + 1 by omega]
    rw [eatWsLoop] at h ⊢
    rw [eatWsLoop]
    refine bind_more h fun _ h => ?_
    split
    · rename_i hc
      rw [if_pos hc] at h
      exact bind_more h fun _ h => eatLoop_more fuel k h
    · rename_i hc
      rw [if_neg hc] at h
      split
      · rename_i hc
        rw [if_pos hc] at h
        exact bind_more h fun _ h => eatLoop_more fuel k h
      · rename_i hc
        rw [if_neg hc] at h
        split
        · rename_i hc
          rw [if_pos hc] at h
          exact bind_more h fun _ h => eatLoop_more fuel k h
        · rename_i hc
          rw [if_neg hc] at h
          split
          · rename_i hc
            rw [if_pos hc] at h
            exact bind_more h fun _ h => eatLoop_more fuel k h
          · rfl

/-- From one place to another, in at most so many steps. -/
def Walk (opts : SFlags) (n : Nat) (chomp : Bool) (c : Cur) (chomp' : Bool) (c' : Cur) : Prop :=
  ∃ k ≤ n, ∀ f, eatWsLoop opts true (f + k) chomp c = eatWsLoop opts true f chomp' c'

theorem Walk.refl {chomp : Bool} {c : Cur} : Walk opts 0 chomp c chomp c := ⟨0, Nat.le_refl _, fun _ => rfl⟩

theorem Walk.trans {n n' : Nat} {ch ch' ch'' : Bool} {c c' c'' : Cur} (h : Walk opts n ch c ch' c') (h' : Walk opts n' ch' c' ch'' c'') :
    Walk opts (n + n') ch c ch'' c'' := by
  obtain ⟨k, hk, h⟩ := h
  obtain ⟨k', hk', h'⟩ := h'
  exact ⟨k + k', by omega, fun f => by rw [show f + (k + k') = f + k' + k by omega, h, h']⟩

variable (hx : opts.extendable = false)
include hx

theorem cache_done (n : Nat) (s : Str) : cache opts n s = .ok () := by
  induction n generalizing s with
  | zero => rfl
  | succ n ih =>
    rw [cache]
    split
    · rw [hx]; rfl
    · exact ih _

/-- A byte of a line that is not its break. -/
theorem walk_byte {chomp chomp' : Bool} {b : Byte} {t : Str} {m : MStats} (ht : isBoundary (b :: t) 1 = true)
    (h : (b = 0x20 ∨ b = 0x09) ∧ chomp' = chomp ∨ b = 0x23 ∧ chomp' = true ∨ chomp = true ∧ chomp' = true ∧ b < 0x80 ∧ b ≠ 0x0A ∧ b ≠ 0x0D) :
    Walk opts 1 chomp ⟨b :: t, m⟩ chomp' ⟨t, m.update 1 0 1⟩ := by
  refine ⟨1, Nat.le_refl _, fun f => ?_⟩
  have ha : Cur.adv ⟨b :: t, m⟩ 1 = .ok ⟨t, m.update 1 0 1⟩ := by
    unfold Cur.adv
    rw [if_pos ht]
    rfl
  rw [eatWsLoop, cache_done hx, ha]
  show (if isBlank (b :: t) = true then eatWsLoop opts true f chomp ⟨t, m.update 1 0 1⟩ else _) = _
  by_cases hb : b = 0x20 ∨ b = 0x09
  · have h1 : isBlank (b :: t) = true := by rcases hb with rfl | rfl <;> rfl
    rw [if_pos h1]
    rcases h with ⟨-, h⟩ | ⟨h, -⟩ | ⟨h, h', -⟩
    · rw [h]
    · rcases hb with rfl | rfl <;> cases h
    · rw [h, h']
  · have h1 : isBlank (b :: t) = false := by
      simp only [isBlank, startsWith, List.head?_cons]
      simpa using hb
    have h2 : isBreak (b :: t) = false := by
      rcases h with ⟨h, -⟩ | ⟨h, -⟩ | ⟨-, -, h, h', h''⟩
      · exact absurd h hb
      · subst h; rfl
      · unfold isBreak
        split <;> first | rfl | (rename_i heq; cases heq; first | exact absurd rfl h' | exact absurd rfl h'' | exact absurd h (by decide))
    rw [h1, h2]
    simp only [Bool.false_eq_true, if_false]
    by_cases hc : b = 0x23
    · subst hc
      rw [if_pos (show (true && startsWith (0x23 :: t) b! '#') = true from rfl)]
      rcases h with ⟨h, -⟩ | ⟨-, h⟩ | ⟨-, h, -⟩
      · exact absurd h hb
      · rw [h]; rfl
      · rw [h]; rfl
    · have h3 : startsWith (b :: t) b! '#' = false := by simp [startsWith, hc]
      rcases h with ⟨h, -⟩ | ⟨h, -⟩ | ⟨h, h', -⟩
      · exact absurd h hb
      · exact absurd h hc
      · rw [h3, h, h']
        rfl

omit hx in
theorem boundary_one {b : Byte} {s : Str} (hs : ∀ c t, s = c :: t → c < 0x80 ∨ 0xC0 ≤ c) : isBoundary (b :: s) 1 = true := by
  cases s with
  | nil => rfl
  | cons c t => simpa [isBoundary] using hs c t rfl

/-- Blanks. -/
theorem walk_blanks {chomp : Bool} {rest : Str} (hr : ∀ c t, rest = c :: t → c < 0x80 ∨ 0xC0 ≤ c) : ∀ {bs : Str} {m : MStats}, (∀ b ∈ bs, b = 0x20 ∨ b = 0x09) →
    Walk opts bs.length chomp ⟨bs ++ rest, m⟩ chomp ⟨rest, m.update bs.length 0 bs.length⟩
  | [], m, _ => by
    have : m.update 0 0 0 = m := rfl
    rw [List.length_nil, this]
    exact Walk.refl
  | b :: bs, m, h => by
    have h1 := h b (.head _)
    have h2 := walk_blanks (chomp := chomp) hr (m := m.update 1 0 1) fun c hc => h c (.tail _ hc)
    have hb : isBoundary (b :: (bs ++ rest)) 1 = true := by
      refine boundary_one fun c t he => ?_
      cases bs with
      | nil => exact hr c t he
      | cons d ds =>
        cases he
        rcases h c (.tail _ (.head _)) with rfl | rfl <;> exact .inl (by decide)
    have h3 := (walk_byte hx (chomp := chomp) (chomp' := chomp) (m := m) hb (.inl ⟨h1, rfl⟩)).trans h2
    have he : (m.update 1 0 1).update bs.length 0 bs.length = m.update (b :: bs).length 0 (b :: bs).length := by
      simp only [MStats.update, List.length_cons, MStats.mk.injEq, Nat.add_zero, ↓reduceIte]
      refine ⟨by omega, trivial, ?_⟩
      omega
    rw [he, Nat.add_comm] at h3
    exact h3

/-- The first byte of a text. -/
def Fore (s : Str) : Prop := ∀ c t, s = c :: t → c < 0x80 ∨ 0xC0 ≤ c

omit hx in
theorem boundary_fore {p s : Str} (hs : Fore s) : isBoundary (p ++ s) p.length = true := by
  unfold isBoundary
  rw [List.getElem?_append_right (Nat.le_refl _), Nat.sub_self]
  cases s with
  | nil => simp
  | cons c t =>
    have := hs c t rfl
    have hb : (decide (c < 0x80) || decide (0xC0 ≤ c)) = true := by simpa using this
    simp only [List.getElem?_cons_zero, hb, Bool.or_true]

/-- The text of a comment. -/
theorem walk_text {rest : Str} (hr : Fore rest) : ∀ {bs : Str} {m : MStats}, (∀ b ∈ bs, b < 0x80 ∧ b ≠ 0x0A ∧ b ≠ 0x0D) →
    Walk opts bs.length true ⟨bs ++ rest, m⟩ true ⟨rest, m.update bs.length 0 bs.length⟩
  | [], m, _ => by
    have : m.update 0 0 0 = m := rfl
    rw [List.length_nil, this]
    exact Walk.refl
  | b :: bs, m, h => by
    have h1 := h b (.head _)
    have h2 := walk_text hr (m := m.update 1 0 1) fun c hc => h c (.tail _ hc)
    have hb : isBoundary (b :: (bs ++ rest)) 1 = true := by
      refine boundary_one fun c t he => ?_
      cases bs with
      | nil => exact hr c t he
      | cons d ds =>
        cases he
        exact .inl (h c (.tail _ (.head _))).1
    have h3 := (walk_byte hx (chomp := true) (chomp' := true) (m := m) hb (.inr (.inr ⟨rfl, rfl, h1⟩))).trans h2
    have he : (m.update 1 0 1).update bs.length 0 bs.length = m.update (b :: bs).length 0 (b :: bs).length := by
      simp only [MStats.update, List.length_cons, MStats.mk.injEq, Nat.add_zero, ↓reduceIte]
      refine ⟨by omega, trivial, ?_⟩
      omega
    rw [he, Nat.add_comm] at h3
    exact h3

/-- A comment, or none. -/
theorem walk_note {note rest : Str} {m : MStats} (hr : Fore rest) (hn : NoteOrNone note) :
    ∃ ch, Walk opts note.length false ⟨note ++ rest, m⟩ ch ⟨rest, m.update note.length 0 note.length⟩ := by
  rcases hn with rfl | ⟨t, rfl, ht⟩
  · exact ⟨false, by
      have : m.update 0 0 0 = m := rfl
      rw [List.length_nil, this]
      exact Walk.refl⟩
  · have hb : isBoundary (0x23 :: (t ++ rest)) 1 = true := by
      refine boundary_one fun c u he => ?_
      cases t with
      | nil => exact hr c u he
      | cons d ds =>
        cases he
        exact .inl (ht c (.head _)).1
    have h3 := (walk_byte hx (chomp := false) (chomp' := true) (m := m) hb (.inr (.inl ⟨rfl, rfl⟩))).trans
      (walk_text hx hr (m := m.update 1 0 1) ht)
    have he : (m.update 1 0 1).update t.length 0 t.length = m.update (0x23 :: t).length 0 (0x23 :: t).length := by
      simp only [MStats.update, List.length_cons, MStats.mk.injEq, Nat.add_zero, ↓reduceIte]
      refine ⟨by omega, trivial, ?_⟩
      omega
    rw [he, Nat.add_comm] at h3
    exact ⟨true, h3⟩

/-- A line break. -/
theorem walk_break {ch : Bool} {s p rest : Str} {m : MStats} (hs : s = p ++ rest) (hb : isBreak s = true) (hl : breakLen s = p.length) (hr : Fore rest) :
    Walk opts 1 ch ⟨s, m⟩ false ⟨rest, m.update p.length 1 0⟩ := by
  refine ⟨1, Nat.le_refl _, fun f => ?_⟩
  have hbl : isBlank s = false := by
    unfold isBreak at hb
    split at hb <;> first | rfl | cases hb
  have ha : Cur.line ⟨s, m⟩ = .ok ⟨rest, m.update p.length 1 0⟩ := by
    unfold Cur.line
    dsimp only
    rw [hl, hs, boundary_fore hr, if_pos rfl, List.drop_left]
  rw [eatWsLoop, cache_done hx, ha]
  show (if isBlank s = true then _ else if isBreak s = true then eatWsLoop opts true f false ⟨rest, m.update p.length 1 0⟩ else _) = _
  rw [hbl, hb]
  rfl

omit hx in
theorem fore_ascii {b : Byte} {s : Str} (h : b < 0x80 ∨ 0xC0 ≤ b) : Fore (b :: s) := fun c t he => by cases he; exact h

omit hx in
theorem fore_break {br s : Str} (h : br ∈ lineBreaks) : Fore (br ++ s) := by
  simp only [lineBreaks, List.mem_cons, List.not_mem_nil, or_false] at h
  rcases h with rfl | rfl | rfl | rfl | rfl | rfl <;> exact fore_ascii (by decide)

omit hx in
theorem fore_note {note s : Str} (hn : NoteOrNone note) (hs : Fore s) : Fore (note ++ s) := by
  rcases hn with rfl | ⟨t, rfl, -⟩
  · exact hs
  · exact fore_ascii (by decide)

omit hx in
theorem fore_blanks {bs s : Str} (hb : ∀ b ∈ bs, b = 0x20 ∨ b = 0x09) (hs : Fore s) : Fore (bs ++ s) := by
  cases bs with
  | nil => exact hs
  | cons b bs =>
    refine fore_ascii ?_
    rcases hb b (.head _) with rfl | rfl <;> exact .inl (by decide)

omit hx in
theorem fore_lines {W B : Str} (h : EmptyLines W) (hB : Fore B) : Fore (W ++ B) := by
  cases h with
  | nil => exact hB
  | line hb hn hr _ =>
    simp only [List.append_assoc]
    exact fore_blanks hb (fore_note hn (fore_break hr))

omit hx in
theorem lines_tail {W : Str} (h : EmptyLines (0x0A :: W)) : EmptyLines W := by
  generalize hV : 0x0A :: W = V at h
  cases h with
  | nil => cases hV
  | @line bs note br rest hb hn hr more =>
    cases bs with
    | cons b bs => cases hV; rcases hb _ (.head _) with h | h <;> cases h
    | nil =>
      rcases hn with rfl | ⟨t, rfl, -⟩
      · simp only [lineBreaks, List.mem_cons, List.not_mem_nil, or_false] at hr
        rcases hr with rfl | rfl | rfl | rfl | rfl | rfl <;> cases hV
        exact more
      · cases hV

omit hx in
theorem update_line {m : MStats} (hm : m.column = 0) {a b c d e : Nat} : (((m.update a 0 d).update b 0 e).update c 1 0) = m.mv (a + (b + c)) 1 := by
  obtain ⟨r, n, k⟩ := m
  cases hm
  simp only [MStats.update, MStats.mv, MStats.mk.injEq, Nat.add_zero]
  refine ⟨by omega, trivial, rfl⟩

omit hx in
theorem mv_mv {m : MStats} {a b c d : Nat} : (m.mv a b).mv c d = m.mv (c + a) (d + b) := by
  simp only [MStats.mv, MStats.mk.injEq]
  refine ⟨by omega, by omega, trivial⟩

/-- Over the empty lines before a text; or, if they end in a carriage return and the text begins with a line feed, over that too. -/
theorem walk_lines {B : Str} (hB : Fore B) (hB' : ∀ u, B = 0x0A :: u → Fore u) : ∀ (k : Nat) {W : Str} {m : MStats}, W.length ≤ k → EmptyLines W → m.column = 0 →
    (∃ l, Walk opts W.length false ⟨W ++ B, m⟩ false ⟨B, m.mv W.length l⟩) ∨
    ∃ l B', B = 0x0A :: B' ∧ Walk opts W.length false ⟨W ++ B, m⟩ false ⟨B', m.mv (W.length + 1) (l + 1)⟩ := by
  intro k
  induction k with
  | zero =>
    intro W m hk hW _
    cases W with
    | nil => exact .inl ⟨0, Walk.refl⟩
    | cons b W => simp at hk
  | succ k ih =>
    intro W m hk hW hm
    cases hW with
    | nil => exact .inl ⟨0, Walk.refl⟩
    | @line bs note br rest hb hn hr more =>
      have hrest : Fore (rest ++ B) := fore_lines more hB
      have h1 := walk_blanks hx (chomp := false) (m := m) (fore_note hn (fore_break (s := rest ++ B) hr)) hb
      obtain ⟨ch, h2⟩ := walk_note hx (m := m.update bs.length 0 bs.length) (fore_break (s := rest ++ B) hr) hn
      have h12 := h1.trans h2
      simp only [List.append_assoc, List.length_append] at hk ⊢
      have hbr1 : 1 ≤ br.length := by
        simp only [lineBreaks, List.mem_cons, List.not_mem_nil, or_false] at hr
        rcases hr with rfl | rfl | rfl | rfl | rfl | rfl <;> decide
      by_cases hcr : br = [0x0D] ∧ ∃ u, rest ++ B = 0x0A :: u
      · obtain ⟨rfl, u, hu⟩ := hcr
        have hu' : Fore u ∧ (∀ W, rest = 0x0A :: W → EmptyLines W ∧ u = W ++ B) := by
          cases rest with
          | nil => exact ⟨hB' u hu, fun W h => by cases h⟩
          | cons b W =>
            cases hu
            have hW := lines_tail more
            exact ⟨fore_lines hW hB, fun W' h => by cases h; exact ⟨hW, rfl⟩⟩
        have h3 := h12.trans (walk_break hx (s := [0x0D] ++ (rest ++ B)) (p := [0x0D, 0x0A]) (rest := u) (by rw [hu]; rfl) rfl
          (by rw [hu]; rfl) hu'.1)
        rw [update_line hm] at h3
        cases rest with
        | nil =>
          refine .inr ⟨0, u, hu, ?_⟩
          have he : bs.length + (note.length + [0x0D, 0x0A].length) = bs.length + (note.length + ([0x0D].length + ([] : Str).length)) + 1 := by simp; omega
          rw [he] at h3
          obtain ⟨k, h4, h5⟩ := h3
          exact ⟨k, by simp at h4 ⊢; omega, h5⟩
        | cons b W =>
          cases hu
          obtain ⟨hW, -⟩ := hu'.2 W rfl
          have hlen : W.length ≤ k := by simp at hk; omega
          rcases ih (m := m.mv (bs.length + (note.length + [0x0D, 0x0A].length)) 1) hlen hW hm with ⟨l, h4⟩ | ⟨l, B', h4, h5⟩
          · have h6 := h3.trans h4
            rw [mv_mv] at h6
            obtain ⟨k, h7, h8⟩ := h6
            refine .inl ⟨l + 1, k, by simp at h7 ⊢; omega, ?_⟩
            rw [show bs.length + (note.length + ([0x0D].length + (0x0A :: W).length)) = W.length + (bs.length + (note.length + [0x0D, 0x0A].length)) by simp; omega]
            exact h8
          · have h6 := h3.trans h5
            rw [mv_mv] at h6
            obtain ⟨k, h7, h8⟩ := h6
            refine .inr ⟨l + 1, B', h4, k, by simp at h7 ⊢; omega, ?_⟩
            rw [show bs.length + (note.length + ([0x0D].length + (0x0A :: W).length)) + 1 = W.length + 1 + (bs.length + (note.length + [0x0D, 0x0A].length)) by simp; omega]
            exact h8
      · have hbl : isBreak (br ++ (rest ++ B)) = true ∧ breakLen (br ++ (rest ++ B)) = br.length := by
          simp only [lineBreaks, List.mem_cons, List.not_mem_nil, or_false] at hr
          rcases hr with rfl | rfl | rfl | rfl | rfl | rfl
          · exact ⟨rfl, rfl⟩
          · refine ⟨rfl, ?_⟩
            cases h : rest ++ B with
            | nil => rfl
            | cons c u =>
              have hc : c ≠ 0x0A := fun hc => hcr ⟨rfl, u, by rw [h, hc]⟩
              show breakLen (0x0D :: c :: u) = 1
              unfold breakLen
              split <;> first | rfl | simp_all
          all_goals exact ⟨rfl, rfl⟩
        have h3 := h12.trans (walk_break hx (m := (m.update bs.length 0 bs.length).update note.length 0 note.length) (ch := ch) rfl hbl.1 hbl.2 hrest)
        rw [update_line hm] at h3
        have hlen : rest.length ≤ k := by omega
        rcases ih (m := m.mv (bs.length + (note.length + br.length)) 1) hlen more hm with ⟨l, h4⟩ | ⟨l, B', h4, h5⟩
        · have h6 := h3.trans h4
          rw [mv_mv] at h6
          obtain ⟨k, h7, h8⟩ := h6
          refine .inl ⟨l + 1, k, by omega, ?_⟩
          rw [show bs.length + (note.length + (br.length + rest.length)) = rest.length + (bs.length + (note.length + br.length)) by omega]
          exact h8
        · have h6 := h3.trans h5
          rw [mv_mv] at h6
          obtain ⟨k, h7, h8⟩ := h6
          refine .inr ⟨l + 1, B', h4, k, by omega, ?_⟩
          rw [show bs.length + (note.length + (br.length + rest.length)) + 1 = rest.length + 1 + (bs.length + (note.length + br.length)) by omega]
          exact h8

end Yary.Moved
