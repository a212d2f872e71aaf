import Verif.Spec.Tree
import Verif.Proof.Reading.Json
import Verif.Proof.Scan.Inj

/-! # Trees in block style are texts of the grammar -/

namespace Yary.Reading

open Spec

variable {base : Str} {tags : List (Str × Str)}

/-! ## Columns -/

theorem column_of {p l : Str} {ls : List Str} (h : linesOf p = ls ++ [l]) : (posAfter {} p).column = l.length := by
  unfold posAfter
  rw [h]
  cases ls with
  | nil => simp
  | cons x ls =>
    cases ls with
    | nil => simp
    | cons y ls =>
      show ((x :: y :: ls ++ [l]).getLast?.getD []).length = _
      rw [List.getLast?_append]
      rfl

/-- Another byte of the last line. -/
theorem lastLine_snoc (q : Str) (b : Byte) (h1 : b < 128) (h2 : b ≠ 0x0A) (h3 : b ≠ 0x0D) :
    ∃ ls l, linesOf q = ls ++ [l] ∧ linesOf (q ++ [b]) = ls ++ [l ++ [b]] := by
  have hb : linesOf [b] = [[b]] := by
    rw [linesOf.eq_def]
    split <;> simp_all [linesOf]
  have step : ∀ {x : Byte} {t ls' : List Byte} {ls : List Str} {l : Str}, (∀ m ms, linesOf t = m :: ms → linesOf (x :: t) = (x :: m) :: ms) →
      (∀ m ms, linesOf (t ++ [b]) = m :: ms → linesOf (x :: (t ++ [b])) = (x :: m) :: ms) →
      linesOf t = ls ++ [l] → linesOf (t ++ [b]) = ls ++ [l ++ [b]] →
      ∃ ls l, linesOf (x :: t) = ls ++ [l] ∧ linesOf (x :: (t ++ [b])) = ls ++ [l ++ [b]] := by
    intro x t _ ls l e1 e2 h h'
    cases ls with
    | nil => exact ⟨[], x :: l, e1 _ _ h, e2 _ _ h'⟩
    | cons m ls => exact ⟨(x :: m) :: ls, l, e1 _ _ h, e2 _ _ h'⟩
  induction q using linesOf.induct with
  | case1 => exact ⟨[], [], rfl, hb⟩
  | case2 t ih =>
    obtain ⟨ls, l, g1, g2⟩ := ih
    exact ⟨[] :: ls, l, by simp [linesOf, g1], by simp [linesOf, g2]⟩
  | case3 t h ih =>
    obtain ⟨ls, l, g1, g2⟩ := ih
    have : (linesOf (0x0D :: (t ++ [b]))) = [] :: linesOf (t ++ [b]) := by
      rw [linesOf]
      intro t' ht'
      cases t with
      | nil => simp at ht'; exact h2 ht'.1
      | cons x t => simp at ht'; exact h _ (by rw [ht'.1])
    exact ⟨[] :: ls, l, by simp [linesOf, g1], by simp [this, g2]⟩
  | case4 t ih =>
    obtain ⟨ls, l, g1, g2⟩ := ih
    exact ⟨[] :: ls, l, by simp [linesOf, g1], by simp [linesOf, g2]⟩
  | case5 t ih =>
    obtain ⟨ls, l, g1, g2⟩ := ih
    exact ⟨[] :: ls, l, by simp [linesOf, g1], by simp [linesOf, g2]⟩
  | case6 t ih =>
    obtain ⟨ls, l, g1, g2⟩ := ih
    exact ⟨[] :: ls, l, by simp [linesOf, g1], by simp [linesOf, g2]⟩
  | case7 t ih =>
    obtain ⟨ls, l, g1, g2⟩ := ih
    exact ⟨[] :: ls, l, by simp [linesOf, g1], by simp [linesOf, g2]⟩
  | case8 x t g1 g2 g3 g4 g5 g6 hm => exact absurd hm (linesOf_ne t)
  | case9 x t g1 g2 g3 g4 g5 g6 l ls hm ih =>
    obtain ⟨ls, l, k1, k2⟩ := ih
    have brk : isBreak (x :: (t ++ [b])) = false := by
      cases hk : isBreak (x :: (t ++ [b])) with
      | false => rfl
      | true =>
        exfalso
        unfold isBreak at hk
        split at hk
        · rename_i h; cases h; exact g2 rfl
        · rename_i h; cases h; exact g3 rfl
        · rename_i u h
          simp only [List.cons.injEq] at h
          cases t with
          | nil => simp at h; byte_omega
          | cons a t => simp at h; exact g4 t h.1 (by rw [h.2.1])
        · rename_i u h
          simp only [List.cons.injEq] at h
          rcases t with _ | ⟨a, _ | ⟨c, t⟩⟩
          · simp at h
          · simp at h; byte_omega
          · simp at h; exact g5 t h.1 (by rw [h.2.1, h.2.2.1])
        · rename_i u h
          simp only [List.cons.injEq] at h
          rcases t with _ | ⟨a, _ | ⟨c, t⟩⟩
          · simp at h
          · simp at h; byte_omega
          · simp at h; exact g6 t h.1 (by rw [h.2.1, h.2.2.1])
        · cases hk
    refine step (ls' := []) (fun m ms h => linesOf_byte (isBreak_prefix (p := x :: t) (r := [b]) brk) h) (fun m ms h => linesOf_byte brk h) k1 k2

/-- After a line feed, the last line is empty. -/
theorem lastLine_feed (q : Str) : ∃ ls, ls ≠ [] ∧ linesOf (q ++ [0x0A]) = ls ++ [[]] := by
  induction q using linesOf.induct with
  | case1 => exact ⟨[[]], by simp, rfl⟩
  | case2 t ih =>
    obtain ⟨ls, hne, g⟩ := ih
    exact ⟨[] :: ls, by simp, by simp [linesOf, g]⟩
  | case3 t h ih =>
    obtain ⟨ls, hne, g⟩ := ih
    cases t with
    | nil => exact ⟨[[]], by simp, rfl⟩
    | cons x t =>
      have : (linesOf (0x0D :: (x :: t ++ [0x0A]))) = [] :: linesOf (x :: t ++ [0x0A]) := by
        rw [linesOf]
        intro t' ht'
        simp at ht'
        exact h _ (by rw [ht'.1])
      exact ⟨[] :: ls, by simp, by rw [List.cons_append, this, g]; rfl⟩
  | case4 t ih =>
    obtain ⟨ls, hne, g⟩ := ih
    exact ⟨[] :: ls, by simp, by simp [linesOf, g]⟩
  | case5 t ih =>
    obtain ⟨ls, hne, g⟩ := ih
    exact ⟨[] :: ls, by simp, by simp [linesOf, g]⟩
  | case6 t ih =>
    obtain ⟨ls, hne, g⟩ := ih
    exact ⟨[] :: ls, by simp, by simp [linesOf, g]⟩
  | case7 t ih =>
    obtain ⟨ls, hne, g⟩ := ih
    exact ⟨[] :: ls, by simp, by simp [linesOf, g]⟩
  | case8 x t g1 g2 g3 g4 g5 g6 hm => exact absurd hm (linesOf_ne t)
  | case9 x t g1 g2 g3 g4 g5 g6 l ls hm ih =>
    obtain ⟨ls, hne, g⟩ := ih
    have brk : isBreak (x :: (t ++ [0x0A])) = false := by
      cases hk : isBreak (x :: (t ++ [0x0A])) with
      | false => rfl
      | true =>
        exfalso
        unfold isBreak at hk
        split at hk
        · rename_i h; cases h; exact g2 rfl
        · rename_i h; cases h; exact g3 rfl
        · rename_i u h
          simp only [List.cons.injEq] at h
          cases t with
          | nil => simp at h
          | cons a t => simp at h; exact g4 t h.1 (by rw [h.2.1])
        · rename_i u h
          simp only [List.cons.injEq] at h
          rcases t with _ | ⟨a, _ | ⟨c, t⟩⟩
          · simp at h
          · simp at h
          · simp at h; exact g5 t h.1 (by rw [h.2.1, h.2.2.1])
        · rename_i u h
          simp only [List.cons.injEq] at h
          rcases t with _ | ⟨a, _ | ⟨c, t⟩⟩
          · simp at h
          · simp at h
          · simp at h; exact g6 t h.1 (by rw [h.2.1, h.2.2.1])
        · cases hk
    cases ls with
    | nil =>
      exact absurd rfl hne
    | cons m ls => exact ⟨(x :: m) :: ls, by simp, linesOf_byte brk (by simpa using g)⟩

theorem column_feed {q t : Str} (hb : base = q ++ 0x0A :: t) : columnOf base t = 0 := by
  unfold columnOf
  rw [place_of (p := q ++ [0x0A]) (by rw [hb]; simp)]
  obtain ⟨ls, -, h⟩ := lastLine_feed q
  exact column_of h

theorem column_word {q w t : Str} (hw : ∀ b ∈ w, b < 128 ∧ NoBrk b) (hb : base = q ++ (w ++ t)) : columnOf base t = columnOf base (w ++ t) + w.length := by
  induction w generalizing q with
  | nil => simp
  | cons b w ih =>
    have h1 := hw b (by simp)
    rw [ih (q := q ++ [b]) (fun x hx => hw x (by simp [hx])) (by rw [hb]; simp)]
    obtain ⟨ls, l, g1, g2⟩ := lastLine_snoc q b h1.1 h1.2.2.1 h1.2.1
    unfold columnOf
    rw [place_of (p := q ++ [b]) (r := w ++ t) (by rw [hb]; simp), place_of (p := q) (r := b :: w ++ t) hb, column_of g1, column_of g2]
    simp
    omega

theorem indentation_bytes (n : Nat) : ∀ b ∈ indentation n, b < 128 ∧ NoBrk b := by
  intro b hb
  rw [(List.mem_replicate.1 hb).2]
  decide

theorem indentation_space (n : Nat) : JsonSpace (indentation n) := fun b hb => .inl (List.mem_replicate.1 hb).2

theorem column_indentation {q t : Str} {n : Nat} (hb : base = q ++ 0x0A :: (indentation n ++ t)) : columnOf base t = n := by
  have h1 : columnOf base (indentation n ++ t) = 0 := column_feed hb
  rw [column_word (q := q ++ [0x0A]) (indentation_bytes n) (by rw [hb]; simp), h1]
  simp [indentation]

/-! ## Strings -/

theorem hexDigits_length (k n : Nat) : (hexDigits k n).length = k := by
  induction k generalizing n with
  | zero => rfl
  | succ k ih => simp [hexDigits, ih]

theorem hexFrom_append (s t : Str) (v : Nat) : hexFrom v (s ++ t) = (hexFrom v s).bind fun w => hexFrom w t := by
  induction s generalizing v with
  | nil => rfl
  | cons b s ih =>
    simp only [List.cons_append, hexFrom]
    cases hexDigit b with
    | none => rfl
    | some d => exact ih _

theorem hexFrom_digits (k n v : Nat) (h : n < 16 ^ k) : hexFrom v (hexDigits k n) = some (v * 16 ^ k + n) := by
  induction k generalizing n v with
  | zero => simp [hexDigits, hexFrom]; omega
  | succ k ih =>
    rw [hexDigits, hexFrom_append, ih (n / 16) v (by rw [Nat.pow_succ] at h; omega)]
    simp only [Option.bind_some, hexFrom]
    have h16 : n % 16 < 16 := Nat.mod_lt _ (by decide)
    have hd : hexDigit (if n % 16 < 10 then b! '0' + n % 16 else b! 'A' + (n % 16 - 10)) = some (n % 16) := by
      generalize n % 16 = d at h16
      unfold hexDigit
      split
      · rw [if_pos (by byte_omega)]
        congr 1; byte_omega
      · rw [if_neg (by byte_omega), if_pos (by byte_omega)]
        congr 1; byte_omega
    rw [hd]
    simp only [Option.some.injEq, Nat.pow_succ]
    rw [Nat.add_mul, Nat.mul_assoc]
    omega

theorem writeChar_piece (c : Char) : IsPiece (writeChar c) c := by
  unfold writeChar
  split
  · next h => exact .inr ⟨rfl, .inr ⟨h.1, h.2.1⟩, h.2.2.1, h.2.2.2⟩
  · refine .inl ⟨_, rfl, .code ?_ ?_⟩
    · rw [hexDigits_length]; decide
    · unfold hexNumber
      have : c.toNat < 0x110000 := by
        have := c.valid
        rcases this with h | h
        · have : c.toNat < 0xD800 := h
          omega
        · exact h.2
      rw [hexFrom_digits _ _ _ (by omega)]
      simp

theorem write_pieces (cs : List Char) : cs.flatMap writeChar = piecesText (cs.map fun c => (writeChar c, c)) := by
  induction cs with
  | nil => rfl
  | cons c cs ih => simp [piecesText, ih] at *

theorem map_pieces (cs : List Char) : Pieces (cs.map fun c => (writeChar c, c)) := by
  intro p hp
  obtain ⟨c, -, rfl⟩ := List.mem_map.1 hp
  exact writeChar_piece c

theorem write_bytes (cs : List Char) : ∀ b ∈ writeString cs, b < 128 ∧ NoBrk b := by
  intro b hb
  unfold writeString at hb
  simp only [List.mem_cons, List.mem_append, List.not_mem_nil, or_false] at hb
  rcases hb with rfl | hb | rfl
  · decide
  · rw [write_pieces] at hb
    exact pieces_bytes (map_pieces cs) b hb
  · decide

theorem write_leaf (cs : List Char) (p : Spot) (kind : NodeKind) (r : Str) :
    Leaf base tags p kind (writeString cs ++ r) [jsonString kind cs] r := by
  have := Leaf.scalar (base := base) (tags := tags) (p := p) (kind := kind) .none usable_none
    (Word.quoted (base := base) (p := p) (single := false) (quoted_pieces (map_pieces cs) r))
  simpa [quoteMark, quoteStyle, scalarTag, jsonString, writeString, write_pieces, Function.comp_def] using this

theorem write_solid (cs : List Char) (r : Str) : Solid (writeString cs ++ r) := .inr ⟨b! '"', _, rfl, by decide⟩

/-! ## Lines -/

/-- After the lines of a collection in the column `n`, what comes is `t`, and it is less indented. -/
def Below (n : Nat) (r t : Str) : Prop := ∃ j, r = indentation j ++ t ∧ Solid t ∧ (t = [] ∨ j < n)

theorem feed_skips {n : Nat} {t : Str} (h : Solid t) : NewLine (0x0A :: (indentation n ++ t)) t := by
  have : ∀ n, Skips true (indentation n ++ t) 0 t := by
    intro n
    induction n with
    | zero => exact h.skips
    | succ n ih => exact .blank (.inl rfl) ih
  exact ⟨0, .line (w := [0x0A]) ⟨by decide, fun h => by cases h.1⟩ (this n)⟩

theorem Below.line {n : Nat} {r t : Str} (h : Below n r t) : NewLine (0x0A :: r) t := by
  obtain ⟨j, rfl, hs, -⟩ := h
  exact feed_skips hs

theorem Below.closes {n : Nat} {q r t : Str} (h : Below n r t) (hb : base = q ++ 0x0A :: r) : Closes base false n t := by
  obtain ⟨j, rfl, -, rfl | h⟩ := h
  · exact .inl rfl
  · exact .inr (.inl (by rwa [column_indentation hb]))

/-- The text of a tree ends with a line feed. -/
theorem written_ends (step : Nat) (x : Tree) : ∀ n, ∃ w, x.written step n = w ++ [0x0A] := by
  refine Tree.rec (motive_1 := fun x => ∀ n, ∃ w, x.written step n = w ++ [0x0A])
    (motive_2 := fun l => ∀ n, l.written step n = [] ∨ ∃ w, l.written step n = w ++ [0x0A])
    (motive_3 := fun l => ∀ n, l.written step n = [] ∨ ∃ w, l.written step n = w ++ [0x0A]) ?_ ?_ ?_ ?_ ?_ ?_ ?_ x
  · intro cs n
    exact ⟨0x20 :: writeString cs, by simp [Tree.written]⟩
  · intro l ih n
    cases l with
    | nil => exact ⟨bytes! " []", by simp only [Tree.written]; decide⟩
    | cons y l =>
      rcases ih n with h | ⟨w, h⟩
      · exact ⟨[], by simp [Tree.written, h]⟩
      · exact ⟨0x0A :: w, by simp [Tree.written, h]⟩
  · intro l ih n
    cases l with
    | nil => exact ⟨bytes! " {}", by simp only [Tree.written]; decide⟩
    | cons k y l =>
      rcases ih n with h | ⟨w, h⟩
      · exact ⟨[], by simp [Tree.written, h]⟩
      · exact ⟨0x0A :: w, by simp [Tree.written, h]⟩
  · intro n
    exact .inl (by simp [TreeList.written])
  · intro y l ih ih' n
    obtain ⟨w, h⟩ := ih (n + step)
    rcases ih' n with h' | ⟨w', h'⟩
    · exact .inr ⟨indentation n ++ b! '-' :: w, by simp [TreeList.written, h, h']⟩
    · exact .inr ⟨indentation n ++ b! '-' :: (w ++ 0x0A :: w'), by simp [TreeList.written, h, h']⟩
  · intro n
    exact .inl (by simp [TreePairs.written])
  · intro k y l ih ih' n
    obtain ⟨w, h⟩ := ih (n + step)
    rcases ih' n with h' | ⟨w', h'⟩
    · exact .inr ⟨indentation n ++ (writeString k ++ b! ':' :: w), by simp [TreePairs.written, h, h']⟩
    · exact .inr ⟨indentation n ++ (writeString k ++ b! ':' :: (w ++ 0x0A :: w')), by simp [TreePairs.written, h, h']⟩

/-- The text of a tree: within the line, or in the lines that follow. -/
def GT (base : Str) (tags : List (Str × Str)) (step : Nat) (x : Tree) : Prop := ∀ n kind, x.KeysFit →
  (∃ w, x.written step n = 0x20 :: (w ++ [0x0A]) ∧ ∀ r, Solid (w ++ r) ∧ ∀ p : Spot, p.line = none → Inline base tags p kind (w ++ r) (x.events kind) r) ∨
  ∃ w, x.written step n = 0x0A :: (indentation n ++ w) ∧ ∀ q r t p, base = q ++ (x.written step n ++ r) → Below n r t →
    Solid (w ++ r) ∧ BlockColl base tags p kind none none (w ++ r) (x.events kind) t

def GL (base : Str) (tags : List (Str × Str)) (step : Nat) (l : TreeList) : Prop :=
  ∀ n first q r t, l.KeysFit → (l = .nil → first = false) → base = q ++ 0x0A :: (l.written step n ++ r) → Below n r t →
    ∃ s j, l.written step n ++ r = indentation j ++ s ∧ Solid s ∧ (s = [] ∨ j ≤ n) ∧ (l ≠ .nil → j = n) ∧
      BlockSeq base tags n false first s (l.events ++ [.SequenceEnd]) t

def GP (base : Str) (tags : List (Str × Str)) (step : Nat) (l : TreePairs) : Prop :=
  ∀ n first q r t p, l.KeysFit → (l = .nil → first = false) → base = q ++ 0x0A :: (l.written step n ++ r) → Below n r t →
    ∃ s j, l.written step n ++ r = indentation j ++ s ∧ Solid s ∧ (s = [] ∨ j ≤ n) ∧ (l ≠ .nil → j = n) ∧
      BlockMap base tags n p first s (l.events ++ [.MappingEnd]) t

theorem at_ok {c : Nat} {t : Str} (h : c < columnOf base t) : (Spot.at c).Ok base t :=
  ⟨fun _ n hn => by cases hn; exact h, fun l hl => by cases hl⟩

theorem part_reads {step n c : Nat} {x : Tree} (h : GT base tags step x) {q r t : Str} (map a : Bool) (kind : NodeKind) (hk : x.KeysFit)
    (hb : base = q ++ (x.written step n ++ r)) (hc : c < n) (hcol : c < columnOf base (x.written step n ++ r)) (ht : Below n r t) :
    BlockPart base tags (.at c) map a kind (x.written step n ++ r) (x.events kind) t ∧ EndsHere (x.written step n ++ r) := by
  rcases h n kind hk with ⟨w, hw, hi⟩ | ⟨w, hw, hi⟩
  · rw [hw] at hb hcol ⊢
    have e : 0x20 :: (w ++ [0x0A]) ++ r = 0x20 :: (w ++ 0x0A :: r) := by simp
    rw [e] at hb hcol ⊢
    obtain ⟨h1, h2⟩ := hi (0x0A :: r)
    refine ⟨.here ⟨space_gap (a := [0x20]) (by intro b hb; simp at hb; exact .inl hb) h1, at_ok ?_⟩ (.inline (h2 _ rfl) (.inl ht.line)), .inr (.inl ⟨_, .inl rfl⟩)⟩
    rw [column_word (q := q) (w := [0x20]) (by intro b hb; simp at hb; rw [hb]; decide) (by rw [hb]; rfl)]
    exact Nat.lt_succ_of_lt hcol
  · obtain ⟨h1, h2⟩ := hi q r t (.at c) hb ht
    rw [hw] at hb hcol ⊢
    have e : 0x0A :: (indentation n ++ w) ++ r = 0x0A :: (indentation n ++ (w ++ r)) := by simp
    rw [e] at hb hcol ⊢
    refine ⟨.under (feed_skips h1) (at_ok ?_) (.coll h2), .inr (.inr (atBreak_iff.2 (by simp [isBreak])))⟩
    rw [column_indentation hb]
    exact hc

theorem indentation_cancel {n : Nat} {s t : Str} (h : indentation n ++ s = indentation n ++ t) : s = t := List.append_cancel_left h

theorem tree_reads {step : Nat} (hstep : 0 < step) (x : Tree) : GT base tags step x := by
  refine Tree.rec (motive_1 := fun x => GT base tags step x) (motive_2 := fun l => GL base tags step l)
    (motive_3 := fun l => GP base tags step l) ?_ ?_ ?_ ?_ ?_ ?_ ?_ x
  · intro cs n kind _
    refine .inl ⟨writeString cs, by simp [Tree.written], fun r => ⟨write_solid cs r, fun p _ => ?_⟩⟩
    simpa [Tree.events] using Inline.leaf (write_leaf cs p kind r)
  · intro l ih n kind hk
    cases l with
    | nil =>
      refine .inl ⟨bytes! "[]", by simp only [Tree.written]; decide, fun r => ⟨.inr ⟨b! '[', _, rfl, by decide⟩, fun p hp => .coll ?_⟩⟩
      have := FlowColl.seq (base := base) (tags := tags) (p := p) (kind := kind) .none usable_none (u := b! ']' :: r) (t := b! ']' :: r)
        ⟨space_gap (a := []) (by simp [JsonSpace]) (solid_of (by decide)), ⟨fun h => (by cases h), fun l h => by simp [Spot.flow, hp] at h⟩⟩ .close
      simpa [Tree.events, TreeList.events] using this
    | cons y l =>
      refine .inr ⟨b! '-' :: (y.written step (n + step) ++ l.written step n), by simp [Tree.written, TreeList.written], fun q r t p hb ht => ?_⟩
      refine ⟨.inr ⟨b! '-', _, rfl, by decide⟩, ?_⟩
      obtain ⟨s, j, h1, h2, h3, h4, h5⟩ := ih n true q r t hk (fun h => by cases h) (by rw [hb]; simp [Tree.written]) ht
      cases h4 (fun h => by cases h)
      have e : s = b! '-' :: (y.written step (n + step) ++ l.written step n) ++ r := by
        apply indentation_cancel (n := n)
        rw [← h1]
        simp [TreeList.written]
      rw [← e]
      have hcol : columnOf base s = n := column_indentation (q := q) (by rw [hb, ← h1]; simp [Tree.written])
      have := BlockColl.seq (base := base) (tags := tags) (p := p) (kind := kind) (a := none) (tg := none) (hcol.symm ▸ h5)
      simpa [Tree.events] using this
  · intro l ih n kind hk
    cases l with
    | nil =>
      refine .inl ⟨bytes! "{}", by simp only [Tree.written]; decide, fun r => ⟨.inr ⟨b! '{', _, rfl, by decide⟩, fun p hp => .coll ?_⟩⟩
      have := FlowColl.map (base := base) (tags := tags) (p := p) (kind := kind) .none usable_none (u := b! '}' :: r) (t := b! '}' :: r)
        ⟨space_gap (a := []) (by simp [JsonSpace]) (solid_of (by decide)), ⟨fun h => (by cases h), fun l h => by simp [Spot.flow, hp] at h⟩⟩ .close
      simpa [Tree.events, TreePairs.events] using this
    | cons k y l =>
      refine .inr ⟨writeString k ++ b! ':' :: (y.written step (n + step) ++ l.written step n), by simp [Tree.written, TreePairs.written], fun q r t p hb ht => ?_⟩
      refine ⟨by rw [List.append_assoc]; exact write_solid _ _, ?_⟩
      obtain ⟨s, j, h1, h2, h3, h4, h5⟩ := ih n true q r t p hk (fun h => by cases h) (by rw [hb]; simp [Tree.written]) ht
      cases h4 (fun h => by cases h)
      have e : s = writeString k ++ b! ':' :: (y.written step (n + step) ++ l.written step n) ++ r := by
        apply indentation_cancel (n := n)
        rw [← h1]
        simp [TreePairs.written]
      rw [← e]
      have hcol : columnOf base s = n := column_indentation (q := q) (by rw [hb, ← h1]; simp [Tree.written])
      have := BlockColl.map (base := base) (tags := tags) (p := p) (kind := kind) (a := none) (tg := none) (hcol.symm ▸ h5)
      simpa [Tree.events] using this
  · intro n first q r t _ hf hb ht
    cases hf rfl
    obtain ⟨j, h1, h2, h3⟩ := ht
    refine ⟨t, j, by simpa [TreeList.written] using h1, h2, ?_, fun h => absurd rfl h, .close (Below.closes ⟨j, h1, h2, h3⟩ (q := q) (r := r) (by rw [hb]; simp [TreeList.written]))⟩
    rcases h3 with h | h
    · exact .inl h
    · exact .inr (Nat.le_of_lt h)
  · intro y l ih ih' n first q r t hk _ hb ht
    obtain ⟨w, hw⟩ := written_ends step y (n + step)
    obtain ⟨s, j, h1, h2, h3, -, h5⟩ := ih' n false (q ++ 0x0A :: (indentation n ++ b! '-' :: w)) r t hk.2 (fun _ => rfl)
      (by rw [hb]; simp [TreeList.written, hw]) ht
    refine ⟨b! '-' :: (y.written step (n + step) ++ (l.written step n ++ r)), n, by simp [TreeList.written], .inr ⟨b! '-', _, rfl, by decide⟩,
      .inr (Nat.le_refl _), fun _ => rfl, ?_⟩
    have hcol : columnOf base (b! '-' :: (y.written step (n + step) ++ (l.written step n ++ r))) = n :=
      column_indentation (q := q) (by rw [hb]; simp [TreeList.written])
    have hb' : base = (q ++ 0x0A :: indentation n) ++ ([b! '-'] ++ (y.written step (n + step) ++ (l.written step n ++ r))) := by
      rw [hb]; simp [TreeList.written]
    have hcol' := column_word (base := base) (w := [b! '-']) (by intro b hb; simp at hb; rw [hb]; decide) hb'
    have hcol'' : columnOf base (y.written step (n + step) ++ (l.written step n ++ r)) = n + 1 := by
      rw [hcol']; simp only [List.singleton_append, hcol]; rfl
    obtain ⟨g1, g2⟩ := part_reads ih (n := n + step) (c := n) (q := q ++ 0x0A :: (indentation n ++ [b! '-'])) (r := l.written step n ++ r) (t := s)
      false true .Entry hk.1 (by rw [hb']; simp) (by omega) (by rw [hcol'']; omega) ⟨j, h1, h2, h3.imp id (fun h => by omega)⟩
    have := BlockSeq.entry (base := base) (tags := tags) (zero := false) (first := first) hcol g2 g1 h5
    simpa [TreeList.events] using this
  · intro n first q r t p _ hf hb ht
    cases hf rfl
    obtain ⟨j, h1, h2, h3⟩ := ht
    refine ⟨t, j, by simpa [TreePairs.written] using h1, h2, ?_, fun h => absurd rfl h, .close (Below.closes ⟨j, h1, h2, h3⟩ (q := q) (r := r) (by rw [hb]; simp [TreePairs.written]))⟩
    rcases h3 with h | h
    · exact .inl h
    · exact .inr (Nat.le_of_lt h)
  · intro k y l ih ih' n first q r t p hk _ hb ht
    obtain ⟨w, hw⟩ := written_ends step y (n + step)
    obtain ⟨s, j, h1, h2, h3, -, h5⟩ := ih' n false (q ++ 0x0A :: (indentation n ++ (writeString k ++ b! ':' :: w))) r t (.at n) hk.2.2 (fun _ => rfl)
      (by rw [hb]; simp [TreePairs.written, hw]) ht
    refine ⟨writeString k ++ b! ':' :: (y.written step (n + step) ++ (l.written step n ++ r)), n, by simp [TreePairs.written], write_solid _ _,
      .inr (Nat.le_refl _), fun _ => rfl, ?_⟩
    have hb' : base = (q ++ 0x0A :: indentation n) ++ (writeString k ++ b! ':' :: (y.written step (n + step) ++ (l.written step n ++ r))) := by
      rw [hb]; simp [TreePairs.written]
    have hcol : columnOf base (writeString k ++ b! ':' :: (y.written step (n + step) ++ (l.written step n ++ r))) = n :=
      column_indentation (q := q) (by rw [hb']; simp)
    have hcol' := column_word (base := base) (write_bytes k) hb'
    have hb'' : base = (q ++ 0x0A :: (indentation n ++ writeString k)) ++ ([b! ':'] ++ (y.written step (n + step) ++ (l.written step n ++ r))) := by
      rw [hb']; simp
    have hcol'' := column_word (base := base) (w := [b! ':']) (by intro b hb; simp at hb; rw [hb]; decide) hb''
    obtain ⟨g1, g2⟩ := part_reads ih (n := n + step) (c := n) (q := q ++ 0x0A :: (indentation n ++ (writeString k ++ [b! ':']))) (r := l.written step n ++ r) (t := s)
      true false .Value hk.2.1 (by rw [hb'']; simp) (by omega) (by rw [hcol'']; simp only [List.singleton_append, List.length_singleton]; omega) ⟨j, h1, h2, h3.imp id (fun h => by omega)⟩
    have hline := same_line hb' (write_bytes k)
    have := BlockMap.implicit (base := base) (tags := tags) (p := p) (first := first) hcol (write_leaf k p .Key _)
      (space_gap (a := []) (by simp [JsonSpace]) (solid_of (by decide))) ⟨hline.1, by rw [hline.2]; have := hk.1; omega⟩ g2 g1 h5
    simpa [TreePairs.events] using this

theorem tree_text {step : Nat} (hstep : 0 < step) (x : Tree) (hk : x.KeysFit) : TextStream (treeText step x) (treeStream x) := by
  unfold treeStream
  refine .docs (s := treeText step x) ?_ (by simp [treeText]) ?_
  · refine space_gap (a := []) (by simp [JsonSpace]) (.inr ⟨b! '-', bytes! "--" ++ x.written step 0, rfl, by decide⟩)
  have hcol : columnOf (treeText step x) (bytes! "---" ++ x.written step 0) = 0 := by
    unfold columnOf treeText
    rw [place_start]
  have hdash : ∀ b ∈ (bytes! "---" : Str), b < 128 ∧ NoBrk b := by unfold NoBrk; decide
  rcases tree_reads (base := treeText step x) (tags := knownTags) hstep x 0 .Root hk with ⟨w, hw, hi⟩ | ⟨w, hw, hi⟩
  · obtain ⟨h1, h2⟩ := hi [0x0A]
    have h3 : DocContent (treeText step x) knownTags none none (x.written step 0) (x.events .Root) [] := by
      rw [hw]
      refine .here (s := w ++ [0x0A]) ⟨space_gap (a := [0x20]) (by intro b hb; simp at hb; exact .inl hb) h1, jsonSpot_ok true _⟩
        (.inline (h2 _ rfl) (.inl (feed_skips (n := 0) (t := []) (.inl rfl))))
    exact .explicit .nil hcol (by rw [hw]; exact .inr (.inl ⟨_, .inl rfl⟩)) h3 .implicit .done
  · have hb : treeText step x = bytes! "---" ++ (x.written step 0 ++ []) := by simp [treeText]
    obtain ⟨h1, h2⟩ := hi _ [] [] ⟨true, none, none⟩ hb ⟨0, rfl, .inl rfl, .inl rfl⟩
    rw [List.append_nil] at h1 h2
    have h3 : DocContent (treeText step x) knownTags none (some 0) (x.written step 0) (x.events .Root) [] := by
      rw [hw]
      exact .under (feed_skips h1) (jsonSpot_ok true _) (.coll h2)
    exact .explicit .nil hcol (by rw [hw]; exact .inr (.inr (atBreak_iff.2 (by simp [isBreak])))) h3 .implicit .done

theorem tree_ascii (step : Nat) (x : Tree) : ∀ n, Ascii (x.written step n) := by
  refine Tree.rec (motive_1 := fun x => ∀ n, Ascii (x.written step n)) (motive_2 := fun l => ∀ n, Ascii (l.written step n))
    (motive_3 := fun l => ∀ n, Ascii (l.written step n)) ?_ ?_ ?_ ?_ ?_ ?_ ?_ x
  · intro cs n
    simp only [Tree.written]
    exact .cons (by decide) (Ascii.append (fun b hb => (write_bytes cs b hb).1) (.cons (by decide) .nil))
  · intro l ih n
    cases l with
    | nil => simp only [Tree.written]; unfold Ascii; decide
    | cons y l => simp only [Tree.written]; exact .cons (by decide) (ih n)
  · intro l ih n
    cases l with
    | nil => simp only [Tree.written]; unfold Ascii; decide
    | cons k y l => simp only [Tree.written]; exact .cons (by decide) (ih n)
  · intro n
    simp only [TreeList.written]; exact .nil
  · intro y l ih ih' n
    simp only [TreeList.written]
    exact Ascii.append (fun b hb => (indentation_bytes n b hb).1) (.cons (by decide) ((ih _).append (ih' n)))
  · intro n
    simp only [TreePairs.written]; exact .nil
  · intro k y l ih ih' n
    simp only [TreePairs.written]
    exact Ascii.append (fun b hb => (indentation_bytes n b hb).1) (Ascii.append (fun b hb => (write_bytes k b hb).1) (.cons (by decide) ((ih _).append (ih' n))))

theorem treeText_ascii (step : Nat) (x : Tree) : Ascii (treeText step x) := Ascii.append (by unfold Ascii; decide) (tree_ascii step x 0)

/-! ## The events determine the tree -/

theorem events_inj (x : Tree) : ∀ kind y r r', x.events kind ++ r = Tree.events kind y ++ r' → x = y ∧ r = r' := by
  refine Tree.rec (motive_1 := fun x => ∀ kind y r r', x.events kind ++ r = Tree.events kind y ++ r' → x = y ∧ r = r')
    (motive_2 := fun l => ∀ m r r', l.events ++ .SequenceEnd :: r = TreeList.events m ++ .SequenceEnd :: r' → l = m ∧ r = r')
    (motive_3 := fun l => ∀ m r r', l.events ++ .MappingEnd :: r = TreePairs.events m ++ .MappingEnd :: r' → l = m ∧ r = r') ?_ ?_ ?_ ?_ ?_ ?_ ?_ x
  · intro cs kind y r r' h
    cases y with
    | text cs' =>
      simp only [Tree.events, jsonString, List.cons_append, List.nil_append, List.cons.injEq, EventData.Scalar.injEq, ScalarLike.Eager.injEq, Scalar.mk.injEq, true_and, and_true] at h
      exact ⟨by rw [utf8_inj h.1], h.2⟩
    | seq l => simp [Tree.events, jsonString] at h
    | map l => simp [Tree.events, jsonString] at h
  · intro l ih kind y r r' h
    cases y with
    | text cs' => simp [Tree.events, jsonString] at h
    | seq m =>
      simp only [Tree.events, List.cons_append, List.append_assoc, List.cons.injEq, true_and, List.nil_append] at h
      obtain ⟨rfl, rfl⟩ := ih m _ _ h
      exact ⟨rfl, rfl⟩
    | map l => simp [Tree.events] at h
  · intro l ih kind y r r' h
    cases y with
    | text cs' => simp [Tree.events, jsonString] at h
    | seq m => simp [Tree.events] at h
    | map m =>
      simp only [Tree.events, List.cons_append, List.append_assoc, List.cons.injEq, true_and, List.nil_append] at h
      obtain ⟨rfl, rfl⟩ := ih m _ _ h
      exact ⟨rfl, rfl⟩
  · intro m r r' h
    cases m with
    | nil => simpa [TreeList.events] using h
    | cons y m => cases y <;> simp [TreeList.events, Tree.events, jsonString] at h
  · intro y l ih ih' m r r' h
    cases m with
    | nil => cases y <;> simp [TreeList.events, Tree.events, jsonString] at h
    | cons z m =>
      simp only [TreeList.events, List.append_assoc] at h
      obtain ⟨rfl, h1⟩ := ih _ z _ _ h
      obtain ⟨rfl, rfl⟩ := ih' m _ _ h1
      exact ⟨rfl, rfl⟩
  · intro m r r' h
    cases m with
    | nil => simpa [TreePairs.events] using h
    | cons k y m => simp [TreePairs.events, jsonString] at h
  · intro k y l ih ih' m r r' h
    cases m with
    | nil => simp [TreePairs.events, jsonString] at h
    | cons k' z m =>
      simp only [TreePairs.events, jsonString, List.cons_append, List.append_assoc, List.cons.injEq, EventData.Scalar.injEq, ScalarLike.Eager.injEq, Scalar.mk.injEq, true_and, and_true] at h
      obtain ⟨rfl, h1⟩ := ih _ z _ _ h.2
      obtain ⟨rfl, rfl⟩ := ih' m _ _ h1
      exact ⟨by rw [utf8_inj h.1], rfl⟩

end Yary.Reading
