import Verif.Proof.Scan.Comes
import Verif.Spec.Blocks

/-! # Block scalars: what they mean -/

namespace Yary

open Spec

variable {opts : SFlags}

theorem HeadOk.cons {b : Byte} {t : Str} (h : b < 128) : HeadOk (b :: t) := by
  intro b' t' he
  cases he
  exact .inl h

theorem HeadOk.append {p r : Str} (hp : Ascii p) (hr : HeadOk r) : HeadOk (p ++ r) := by
  cases p with
  | nil => exact hr
  | cons b t => exact .cons (hp b (by simp))

theorem newlines_ascii {n : Nat} : Ascii (newlines n) := by
  intro b hb
  rw [List.eq_of_mem_replicate hb]
  decide

theorem spaces_ascii {n : Nat} : Ascii (spaces n) := by
  intro b hb
  rw [List.eq_of_mem_replicate hb]
  decide

theorem newlines_succ {n : Nat} : newlines (n + 1) = 0x0A :: newlines n := rfl
theorem spaces_succ {n : Nat} : spaces (n + 1) = 0x20 :: spaces n := rfl
@[simp] theorem newlines_length {n : Nat} : (newlines n).length = n := by simp [newlines]
@[simp] theorem spaces_length {n : Nat} : (spaces n).length = n := by simp [spaces]
@[simp] theorem newlines_zero : newlines 0 = [] := rfl
@[simp] theorem spaces_zero : spaces 0 = [] := rfl

/-- One ASCII byte. -/
theorem adv_ascii {b : Byte} {t : Str} {m : MStats} (hb : b < 128) (ht : HeadOk t) :
    (⟨b :: t, m⟩ : Cur).adv 1 = .ok ⟨t, m.update 1 0 1⟩ :=
  adv_prefix (p := [b]) (by simpa [Ascii] using hb) ht

/-- One line feed. -/
theorem line_feed {t : Str} {m : MStats} (ht : HeadOk t) : (⟨0x0A :: t, m⟩ : Cur).line = .ok ⟨t, m.update 1 1 0⟩ := by
  have := (Around.mk ⟨[0x0A], rfl, newlines_ascii (n := 1)⟩ ht : Around (0x0A :: t) t).boundary (n := 1) (by simp; omega)
  unfold Cur.line
  simp only [breakLen, this, ↓reduceIte, List.drop_succ_cons, List.drop_zero]

/-- What the position is after `len` bytes, in the given column. -/
def MovedTo (m m' : MStats) (len column : Nat) : Prop := m'.read = m.read + len ∧ m'.column = column

theorem scanIndentLoop_spaces (hx : opts.extendable = false) {n a fuel l : Nat} {t : Str} {m : MStats} (ht : HeadOk t) (ha : m.column + a ≤ n) :
    ∃ m', MovedTo m m' a (m.column + a) ∧ scanIndentLoop opts n (fuel + a) ⟨spaces a ++ t, m⟩ l = scanIndentLoop opts n fuel ⟨t, m'⟩ l := by
  induction a generalizing m with
  | zero => exact ⟨m, ⟨rfl, rfl⟩, rfl⟩
  | succ a ih =>
    obtain ⟨m', ⟨h1, h2⟩, h3⟩ := ih (m := m.update 1 0 1) (by simp [MStats.update]; omega)
    refine ⟨m', ⟨?_, ?_⟩, ?_⟩
    · rw [h1]; simp [MStats.update]; omega
    · rw [h2]; simp [MStats.update]; omega
    · rw [← h3, ← Nat.add_assoc, scanIndentLoop, spaces_succ, List.cons_append]
      have hlt : m.column < n := by omega
      simp only [hlt, decide_true, isWhiteSpace, isBlank, startsWith, List.head?_cons, BEq.rfl, Bool.true_or, Bool.and_self, ↓reduceIte,
        adv_ascii (b := 0x20) (by decide) (HeadOk.append (spaces_ascii (n := a)) ht), Out.ok_bind, cache_whole opts hx]

theorem scanIndentLoop_breaks (hx : opts.extendable = false) {n k fuel l : Nat} {t : Str} {m : MStats} (ht : HeadOk t) (hn : m.column < n) :
    ∃ m', MovedTo m m' k (if k = 0 then m.column else 0) ∧
      scanIndentLoop opts n (fuel + k) ⟨newlines k ++ t, m⟩ l = scanIndentLoop opts n fuel ⟨t, m'⟩ (l + k) := by
  induction k generalizing m l with
  | zero => exact ⟨m, ⟨rfl, rfl⟩, rfl⟩
  | succ k ih =>
    obtain ⟨m', ⟨h1, h2⟩, h3⟩ := ih (m := m.update 1 1 0) (l := l + 1) (by simp [MStats.update]; omega)
    refine ⟨m', ⟨?_, ?_⟩, ?_⟩
    · rw [h1]; simp [MStats.update]; omega
    · rw [h2]; simp [MStats.update]
    · rw [show l + (k + 1) = l + 1 + k by omega, ← h3, ← Nat.add_assoc, scanIndentLoop, newlines_succ, List.cons_append]
      simp only [hn, decide_true, isWhiteSpace, isBreak, Bool.or_true, Bool.and_self, ↓reduceIte, startsWith, List.head?_cons]
      have e1 : ((some 0x0A : Option Byte) == some (b! ' ')) = false := by decide
      have e2 : ((some 0x0A : Option Byte) == some 0x09) = false := by decide
      simp only [e1, e2, Bool.false_eq_true, ↓reduceIte, line_feed (HeadOk.append (newlines_ascii (n := k)) ht), Out.ok_bind, cache_whole opts hx]

/-- Empty lines, and the indentation of a line. -/
theorem scanIndent_line (hx : opts.extendable = false) {n k l : Nat} {t : Str} {m : MStats} (ht : HeadOk t) (hm : m.column = 0) (hn : 0 < n) :
    ∃ m', MovedTo m m' (k + n) n ∧ scanIndent opts n ⟨newlines k ++ (spaces n ++ t), m⟩ l = .ok (⟨t, m'⟩, l + k) := by
  · obtain ⟨m1, ⟨h1, h2⟩, h3⟩ := scanIndentLoop_breaks hx (n := n) (k := k) (fuel := t.length + n + 1) (l := l) (m := m)
      (HeadOk.append (spaces_ascii (n := n)) ht) (by omega)
    have hc : m1.column = 0 := by rw [h2]; split <;> simp [hm]
    obtain ⟨m2, ⟨g1, g2⟩, g3⟩ := scanIndentLoop_spaces hx (n := n) (a := n) (fuel := t.length + 1) (l := l + k) (m := m1) ht (by omega)
    refine ⟨m2, ⟨by omega, by omega⟩, ?_⟩
    have hge : ¬ m.column ≥ n := by omega
    unfold scanIndent
    simp only [hge, ↓reduceIte, cache_whole opts hx, Out.ok_bind]
    rw [show (newlines k ++ (spaces n ++ t)).length + 1 = t.length + n + 1 + k by simp; omega, h3,
      show t.length + n + 1 = t.length + 1 + n by omega, g3, scanIndentLoop]
    simp [g2, hc]

/-- Empty lines, and a line that is indented less, or the end. -/
theorem scanIndent_end (hx : opts.extendable = false) {n k j l : Nat} {q : Str} {m : MStats} (hq : HeadOk q) (hw : isWhiteSpace q = false)
    (hm : m.column = 0) (hj : j < n) :
    ∃ m', MovedTo m m' (k + j) j ∧ scanIndent opts n ⟨newlines k ++ (spaces j ++ q), m⟩ l = .ok (⟨q, m'⟩, l + k) := by
  obtain ⟨m1, ⟨h1, h2⟩, h3⟩ := scanIndentLoop_breaks hx (n := n) (k := k) (fuel := q.length + j + 1) (l := l) (m := m)
    (HeadOk.append (spaces_ascii (n := j)) hq) (by omega)
  have hc : m1.column = 0 := by rw [h2]; split <;> simp [hm]
  obtain ⟨m2, ⟨g1, g2⟩, g3⟩ := scanIndentLoop_spaces hx (n := n) (a := j) (fuel := q.length + 1) (l := l + k) (m := m1) hq (by omega)
  refine ⟨m2, ⟨by omega, by omega⟩, ?_⟩
  have hge : ¬ m.column ≥ n := by omega
  unfold scanIndent
  simp only [hge, ↓reduceIte, cache_whole opts hx, Out.ok_bind]
  rw [show (newlines k ++ (spaces j ++ q)).length + 1 = q.length + j + 1 + k by simp; omega, h3,
    show q.length + j + 1 = q.length + 1 + j by omega, g3, scanIndentLoop]
  simp [hw]

/-- A line of text. -/
def LineText (l : Str) : Prop := ∀ b ∈ l, b < 128 ∧ b ≠ 0x0A ∧ b ≠ 0x0D

theorem LineText.ascii {l : Str} (h : LineText l) : Ascii l := fun b hb => (h b hb).1

theorem LineText.noBreak {b : Byte} {l t : Str} (h : LineText (b :: l)) : isBreak (b :: t) = false := by
  obtain ⟨h1, h2, h3⟩ := h b (by simp)
  refine NoBrk.isBreak ?_
  unfold NoBrk
  byte_omega

theorem toBreak_line (hx : opts.extendable = false) {fuel : Nat} {l t : Str} {m : MStats} (hl : LineText l) (ht : HeadOk t)
    (hb : isBreakZ t = true) (hf : l.length < fuel) :
    ∃ m', MovedTo m m' l.length (m.column + l.length) ∧ toBreak opts fuel ⟨l ++ t, m⟩ = .ok ⟨t, m'⟩ := by
  induction l generalizing fuel m with
  | nil =>
    cases fuel with
    | zero => omega
    | succ fuel => exact ⟨m, ⟨rfl, rfl⟩, by rw [toBreak]; simp [hb]⟩
  | cons b l ih =>
    cases fuel with
    | zero => omega
    | succ fuel =>
      have hl' : LineText l := fun x hx => hl x (by simp [hx])
      obtain ⟨m', ⟨h1, h2⟩, h3⟩ := ih (fuel := fuel) (m := m.update 1 0 1) hl' (by simp at hf; omega)
      refine ⟨m', ⟨?_, ?_⟩, ?_⟩
      · rw [h1]; simp [MStats.update]; omega
      · rw [h2]; simp [MStats.update]; omega
      · rw [← h3, toBreak, List.cons_append]
        have hnb : isBreakZ (b :: (l ++ t)) = false := by simp [isBreakZ, hl.noBreak]
        simp only [hnb, Bool.false_eq_true, ↓reduceIte, cache_whole opts hx, Out.ok_bind,
          adv_ascii (hl b (by simp)).1 (HeadOk.append hl'.ascii ht)]

/-! ### The lines -/

/-- What follows a line: other lines, line breaks, and then less indented text. -/
def restText (n : Nat) (ls : List BlockLine) (k j : Nat) (q : Str) : Str := moreLines n ls ++ (newlines k ++ (spaces j ++ q))

/-- The end of a block scalar. -/
structure BlockEnds (n k j : Nat) (q : Str) : Prop where
  less : j < n
  last : k = 0 → j = 0 ∧ q = []
  head : HeadOk q
  white : isWhiteSpace q = false

theorem restText_nil {n k j : Nat} {q : Str} : restText n [] k j q = newlines k ++ (spaces j ++ q) := rfl

theorem restText_cons {n k j : Nat} {q : Str} {l : BlockLine} {ls : List BlockLine} :
    restText n (l :: ls) k j q = 0x0A :: (newlines l.empty ++ (spaces n ++ (l.text ++ restText n ls k j q))) := by
  simp [restText, moreLines, newlines_succ, List.append_assoc]

/-- The lines, joined. -/
def joined (fold : Bool) (ls : List BlockLine) : Str := if fold then foldedLines ls else moreLines 0 ls

theorem joined_cons {fold : Bool} {l : BlockLine} {ls : List BlockLine} :
    joined fold (l :: ls) = blockJoin fold (l.empty + 1) ++ (l.text ++ joined fold ls) := by
  cases fold with
  | false => simp [joined, moreLines, blockJoin, newlines, List.append_assoc]
  | true =>
    simp only [joined, foldedLines, ↓reduceIte, List.flatMap_cons, List.append_assoc]
    congr 1
    cases h : l.empty with
    | zero => rfl
    | succ n => rfl

theorem restText_head {n k j : Nat} {q : Str} {ls : List BlockLine} (he : BlockEnds n k j q) :
    HeadOk (restText n ls k j q) ∧ isBreakZ (restText n ls k j q) = true := by
  cases ls with
  | nil =>
    cases k with
    | zero =>
      obtain ⟨rfl, rfl⟩ := he.last rfl
      refine ⟨?_, rfl⟩
      intro b t h
      cases h
    | succ k => exact ⟨.cons (by decide), rfl⟩
  | cons l ls =>
    rw [restText_cons]
    exact ⟨.cons (by decide), rfl⟩

/-- One round of the loop: a line, up to the text of the next one, or to the end. -/
theorem round_next (hx : opts.extendable = false) {n k j fuel : Nat} {q : Str} {l : Str} {l' : BlockLine} {ls : List BlockLine} {m : MStats}
    (hl : LineText l) (hl' : LineText l'.text) (he : BlockEnds n k j q) (hf : l.length < fuel) :
    ∃ m1 m2 m3, MovedTo m m1 l.length (m.column + l.length) ∧
      toBreak opts fuel ⟨l ++ restText n (l' :: ls) k j q, m⟩ = .ok ⟨restText n (l' :: ls) k j q, m1⟩ ∧
      eatBreak opts ⟨restText n (l' :: ls) k j q, m1⟩ 0 = .ok (m2, 1) ∧
      scanIndent opts n m2 1 = .ok (⟨l'.text ++ restText n ls k j q, m3⟩, l'.empty + 1) ∧ m3.column = n := by
  obtain ⟨hh, hb⟩ := restText_head (ls := l' :: ls) he
  obtain ⟨m1, h1, h2⟩ := toBreak_line (fuel := fuel) (m := m) hx hl hh hb hf
  have hT := HeadOk.append hl'.ascii (restText_head (ls := ls) he).1
  obtain ⟨m3, ⟨-, g2⟩, g3⟩ := scanIndent_line hx (n := n) (k := l'.empty) (l := 1) (m := m1.update 1 1 0) hT (by simp [MStats.update]) (by have := he.less; omega)
  refine ⟨m1, ⟨newlines l'.empty ++ (spaces n ++ (l'.text ++ restText n ls k j q)), m1.update 1 1 0⟩, m3, h1, h2, ?_, ?_, g2⟩
  · rw [restText_cons]
    unfold eatBreak
    simp only [cache_whole opts hx, Out.ok_bind, isBreak, ↓reduceIte]
    rw [line_feed]
    · rfl
    · exact HeadOk.append newlines_ascii (HeadOk.append spaces_ascii hT)
  · rw [g3, Nat.add_comm]

theorem round_last (hx : opts.extendable = false) {n k j fuel : Nat} {q : Str} {l : Str} {m : MStats}
    (hl : LineText l) (he : BlockEnds n k j q) (hf : l.length < fuel) (hm : n ≤ m.column) :
    ∃ m1 m2 m3, MovedTo m m1 l.length (m.column + l.length) ∧
      toBreak opts fuel ⟨l ++ restText n [] k j q, m⟩ = .ok ⟨restText n [] k j q, m1⟩ ∧
      eatBreak opts ⟨restText n [] k j q, m1⟩ 0 = .ok (m2, min k 1) ∧
      scanIndent opts n m2 (min k 1) = .ok (⟨q, m3⟩, k) ∧ (q ≠ [] → m3.column < n) := by
  obtain ⟨hh, hb⟩ := restText_head (ls := []) he
  obtain ⟨m1, h1, h2⟩ := toBreak_line (fuel := fuel) (m := m) hx hl hh hb hf
  cases k with
  | zero =>
    obtain ⟨rfl, rfl⟩ := he.last rfl
    refine ⟨m1, ⟨[], m1⟩, m1, h1, h2, ?_, ?_, by simp⟩
    · unfold eatBreak
      simp only [cache_whole opts hx, Out.ok_bind]
      rfl
    · have : n ≤ m1.column := by have := h1.2; omega
      simp [scanIndent, this]
  | succ k =>
    obtain ⟨m3, ⟨-, g2⟩, g3⟩ := scanIndent_end hx (n := n) (k := k) (l := 1) (m := m1.update 1 1 0) he.head he.white (by simp [MStats.update]) he.less
    refine ⟨m1, ⟨newlines k ++ (spaces j ++ q), m1.update 1 1 0⟩, m3, h1, h2, ?_, ?_, fun _ => by have := he.less; omega⟩
    · rw [restText_nil, newlines_succ, List.cons_append]
      unfold eatBreak
      simp only [cache_whole opts hx, Out.ok_bind, isBreak, ↓reduceIte]
      rw [line_feed]
      · simp
      · exact HeadOk.append newlines_ascii (HeadOk.append spaces_ascii he.head)
    · simp only [show min (k + 1) 1 = 1 by omega]
      rw [g3, Nat.add_comm]

/-- The loop ends. -/
theorem blockLoop_end {base : Str} {read : Nat} {fold : Bool} {n fuel : Nat} {st : BlockSt} (h : st.cur.buf ≠ [] → st.cur.stats.column < n) :
    blockLoop opts base read fold n (fuel + 1) st = .ok st := by
  rw [blockLoop, if_neg]
  cases hb : st.cur.buf with
  | nil => simp
  | cons b t =>
    have := h (by simp [hb])
    simp
    omega

/-- The loop goes on with a line, when copying. -/
theorem blockLoop_copy (hx : opts.extendable = false) {base : Str} {read : Nat} {fold : Bool} {n fuel : Nat} {c c1 : Cur} {c2 c3 : Cur}
    {v l : Str} {s0 p0 k k1 k2 : Nat} (hc : c.stats.column = n) (hne : c.buf ≠ []) (hb : c.buf = l ++ c1.buf)
    (h1 : toBreak opts (base.length + 1) c = .ok c1) (h2 : eatBreak opts c1 0 = .ok (c2, k1)) (h3 : scanIndent opts n c2 k1 = .ok (c3, k2)) :
    blockLoop opts base read fold n (fuel + 1) ⟨c, v, false, s0, p0, k⟩ =
      blockLoop opts base read fold n fuel ⟨c3, v ++ blockJoin fold k ++ l, false, 0, (v ++ blockJoin fold k ++ l).length, k2⟩ := by
  rw [blockLoop, if_pos (by simp [hc, hne])]
  have hl : c.buf.take (c.buf.length - c1.buf.length) = l := by rw [hb]; simp
  simp only [BlockSt.trapdoor, Bool.false_and, Bool.false_eq_true, ↓reduceIte, Out.ok_bind, cache_whole opts hx, h1, h2, h3, hl]

theorem lines_copy (hx : opts.extendable = false) {base : Str} {read : Nat} {fold : Bool} {n k j k0 s0 p0 : Nat} {q : Str} {l v : Str} {ls : List BlockLine}
    {m : MStats} {fuel : Nat} (hl : LineText l) (hne : l ≠ []) (hls : ∀ x ∈ ls, LineText x.text ∧ x.text ≠ []) (he : BlockEnds n k j q) (hm : m.column = n)
    (hlen : (l ++ restText n ls k j q).length ≤ base.length) (hf : ls.length + 2 ≤ fuel) :
    ∃ m', blockLoop opts base read fold n fuel ⟨⟨l ++ restText n ls k j q, m⟩, v, false, s0, p0, k0⟩ =
      .ok ⟨⟨q, m'⟩, v ++ blockJoin fold k0 ++ (l ++ joined fold ls), false, 0, (v ++ blockJoin fold k0 ++ (l ++ joined fold ls)).length, k⟩ := by
  induction ls generalizing l v m fuel k0 s0 p0 with
  | nil =>
    obtain ⟨fuel, rfl⟩ : ∃ f, fuel = f + 2 := ⟨fuel - 2, by simp at hf; omega⟩
    obtain ⟨m1, m2, m3, -, h1, h2, h3, h4⟩ := round_last hx (fuel := base.length + 1) (m := m) hl he (by simp at hlen; omega) (by omega)
    refine ⟨m3, ?_⟩
    rw [blockLoop_copy hx (c1 := ⟨restText n [] k j q, m1⟩) (l := l) hm (by simp [hne]) rfl h1 h2 h3, blockLoop_end h4]
    simp [joined, foldedLines, moreLines]
  | cons l' ls ih =>
    obtain ⟨fuel, rfl⟩ : ∃ f, fuel = f + 1 := ⟨fuel - 1, by simp at hf; omega⟩
    obtain ⟨hl', hne'⟩ := hls l' (by simp)
    obtain ⟨m1, m2, m3, -, h1, h2, h3, h4⟩ := round_next hx (fuel := base.length + 1) (m := m) (ls := ls) hl hl' he (by simp at hlen; omega)
    obtain ⟨m', h5⟩ := ih (l := l'.text) (v := v ++ blockJoin fold k0 ++ l) (m := m3) (fuel := fuel) (k0 := l'.empty + 1) (s0 := 0)
      (p0 := (v ++ blockJoin fold k0 ++ l).length) hl' hne' (fun x hx => hls x (by simp [hx])) h4
      (by rw [restText_cons] at hlen; simp at hlen ⊢; omega) (by simp at hf; omega)
    refine ⟨m', ?_⟩
    rw [blockLoop_copy hx (c1 := ⟨restText n (l' :: ls) k j q, m1⟩) (l := l) hm (by simp [hne]) rfl h1 h2 h3, h5, joined_cons]
    simp only [List.append_assoc]

/-! ### The first line -/

theorem detectBlanks_spaces (hx : opts.extendable = false) {a fuel : Nat} {t : Str} {st : DetectSt} {m : MStats} (hc : st.cur = ⟨spaces a ++ t, m⟩)
    (ht : HeadOk t) (hb : isBlank t = false) (hf : a < fuel) :
    ∃ m', MovedTo m m' a (m.column + a) ∧
      detectBlanks opts fuel st = .ok { st with cur := ⟨t, m'⟩, canBorrow := if a = 0 then st.canBorrow else st.canBorrow && !(0 < st.lines) } := by
  induction a generalizing m fuel st with
  | zero =>
    cases fuel with
    | zero => omega
    | succ fuel =>
      obtain ⟨cur, i, l, cb⟩ := st
      simp only at hc
      subst hc
      exact ⟨m, ⟨rfl, rfl⟩, by rw [detectBlanks]; simp [hb]⟩
  | succ a ih =>
    cases fuel with
    | zero => omega
    | succ fuel =>
      obtain ⟨m', ⟨h1, h2⟩, h3⟩ := ih (fuel := fuel) (m := m.update 1 0 1)
        (st := { st with cur := ⟨spaces a ++ t, m.update 1 0 1⟩, canBorrow := st.canBorrow && !(0 < st.lines) }) rfl (by omega)
      refine ⟨m', ⟨?_, ?_⟩, ?_⟩
      · rw [h1]; simp [MStats.update]; omega
      · rw [h2]; simp [MStats.update]; omega
      · rw [detectBlanks, hc, spaces_succ, List.cons_append]
        have e1 : ((some 0x20 : Option Byte) == some 0x09) = false := by decide
        simp only [isBlank, startsWith, List.head?_cons, BEq.rfl, Bool.true_or, ↓reduceIte, cache_whole opts hx, Out.ok_bind, e1, Bool.false_eq_true,
          adv_ascii (b := 0x20) (by decide) (HeadOk.append (spaces_ascii (n := a)) ht), h3]
        simp

/-- The empty lines before the first line, and its indentation. -/
theorem detectLoop_first (hx : opts.extendable = false) {n e fuel : Nat} {t : Str} {st : DetectSt} {m : MStats}
    (hc : st.cur = ⟨newlines e ++ (spaces n ++ t), m⟩) (hi : st.indent = 0) (hm : m.column = 0) (hn : 0 < n) (ht : HeadOk t) (hw : isWhiteSpace t = false)
    (hf : e < fuel) :
    ∃ m', MovedTo m m' (e + n) n ∧
      detectLoop opts fuel st = .ok ⟨⟨t, m'⟩, n, st.lines + e, st.canBorrow && !(0 < st.lines + e)⟩ := by
  simp only [isWhiteSpace, Bool.or_eq_false_iff] at hw
  induction e generalizing m fuel st with
  | zero =>
    cases fuel with
    | zero => omega
    | succ fuel =>
      obtain ⟨m', ⟨h1, h2⟩, h3⟩ := detectBlanks_spaces hx (fuel := (newlines 0 ++ (spaces n ++ t)).length + 1) (st := st) hc ht hw.1 (by simp; omega)
      refine ⟨m', ⟨by omega, by omega⟩, ?_⟩
      rw [detectLoop]
      have hlt : n > st.indent := by omega
      have hn0 : ¬ n = 0 := by omega
      have hcol : m'.column = n := by omega
      simp only [cache_whole opts hx, Out.ok_bind, hc, h3, hlt, ↓reduceIte, hw.2, Bool.false_eq_true, hn0, Nat.add_zero, hcol]
  | succ e ih =>
    cases fuel with
    | zero => omega
    | succ fuel =>
      have hT : HeadOk (newlines e ++ (spaces n ++ t)) := HeadOk.append newlines_ascii (HeadOk.append spaces_ascii ht)
      obtain ⟨m', ⟨h1, h2⟩, h3⟩ := ih (fuel := fuel) (m := m.update 1 1 0)
        (st := { st with cur := ⟨newlines e ++ (spaces n ++ t), m.update 1 1 0⟩, lines := st.lines + 1 }) rfl hi (by simp [MStats.update]) (by omega)
      refine ⟨m', ⟨?_, h2⟩, ?_⟩
      · rw [h1]; simp [MStats.update]; omega
      · rw [detectLoop]
        obtain ⟨cur, i, l, cb⟩ := st
        simp only at hc hi
        subst hc hi
        have hdb : ∀ f, detectBlanks opts (f + 1) ⟨⟨newlines (e + 1) ++ (spaces n ++ t), m⟩, 0, l, cb⟩ = .ok ⟨⟨newlines (e + 1) ++ (spaces n ++ t), m⟩, 0, l, cb⟩ := by
          intro f
          rw [detectBlanks]
          simp [newlines_succ, isBlank, startsWith]
        have hgt : ¬ m.column > 0 := by omega
        simp only [cache_whole opts hx, Out.ok_bind, hdb, hgt, ↓reduceIte]
        rw [newlines_succ, List.cons_append]
        simp only [isBreak, ↓reduceIte, line_feed hT, Out.ok_bind, h3]
        simp only [Nat.add_assoc, Nat.add_comm 1 e]

theorem detectIndent_first (hx : opts.extendable = false) {n e b : Nat} {t : Str} {m : MStats}
    (hm : m.column = 0) (hn : b < n) (ht : HeadOk t) (hw : isWhiteSpace t = false) :
    ∃ m', MovedTo m m' (e + n) n ∧
      detectIndent opts b ⟨newlines e ++ (spaces n ++ t), m⟩ = .ok ⟨⟨t, m'⟩, n, e, decide (e = 0)⟩ := by
  obtain ⟨m', h1, h2⟩ := detectLoop_first hx (fuel := (newlines e ++ (spaces n ++ t)).length + 1)
    (st := { cur := ⟨newlines e ++ (spaces n ++ t), m⟩ }) rfl rfl hm (by omega) ht hw (by simp; omega)
  refine ⟨m', h1, ?_⟩
  unfold detectIndent
  simp only [h2, Out.ok_bind, Nat.zero_add, Bool.true_and]
  have : ¬ n < b + 1 := by omega
  simp only [this, ↓reduceIte]
  congr 2
  cases e <;> simp

/-! ### The header -/

/-- How the code calls it. -/
def chompStyle : Chomping → ChompStyle
  | .strip => .Strip
  | .clip => .Clip
  | .keep => .Keep

theorem blockHeader_eq (hx : opts.extendable = false) {x y : Byte} {ch : Chomping} {t : Str} {m : MStats} (hxa : x < 128) (hy : y = 0x0A ∨ y = 0x20) :
    ∃ m', MovedTo m m' (ch.mark.length + 2) 0 ∧ blockHeader opts ⟨x :: (ch.mark ++ (0x0A :: y :: t)), m⟩ = .ok (chompStyle ch, none, ⟨y :: t, m'⟩) := by
  have hya : y < 128 := by rcases hy with rfl | rfl <;> decide
  have hdy : isDigit y = false := by rcases hy with rfl | rfl <;> decide
  have hpy : (y == b! '+') = false := by rcases hy with rfl | rfl <;> decide
  have hmy : (y == b! '-') = false := by rcases hy with rfl | rfl <;> decide
  have hsb : ∀ m : MStats, skipBlanks opts ⟨0x0A :: y :: t, m⟩ = .ok ⟨0x0A :: y :: t, m⟩ := by
    intro m
    have : skipBlanksLoop opts ((0x0A :: y :: t : Str).length + 1) ⟨0x0A :: y :: t, m⟩ = .ok ⟨0x0A :: y :: t, m⟩ := by
      rw [skipBlanksLoop]
      simp [isBlank, startsWith]
    unfold skipBlanks
    simp only [cache_whole opts hx, Out.ok_bind, this]
    simp [startsWith]
  have hlf : ∀ m : MStats, (⟨0x0A :: y :: t, m⟩ : Cur).line = .ok ⟨y :: t, m.update 1 1 0⟩ := fun m => line_feed (.cons hya)
  have hend : ∀ (m : MStats) (r : ChompStyle), (do
      let c ← skipBlanks opts ⟨0x0A :: y :: t, m⟩
      cache opts 1 c.buf
      if !isWhiteSpaceZ c.buf then .err .InvalidBlockScalar
      else do
        let c ← c.line
        (.ok (r, (none : Option Nat), c) : Out ScanError (ChompStyle × Option Nat × Cur))) = .ok (r, none, ⟨y :: t, m.update 1 1 0⟩) := by
    intro m r
    simp only [hsb, Out.ok_bind, cache_whole opts hx, hlf]
    simp [isWhiteSpaceZ, isBreak]
  cases ch with
  | clip =>
    refine ⟨(m.update 1 0 1).update 1 1 0, ⟨by simp [MStats.update, Chomping.mark], by simp [MStats.update]⟩, ?_⟩
    unfold blockHeader
    have h1 : (⟨x :: (Chomping.clip.mark ++ 0x0A :: y :: t), m⟩ : Cur).adv 1 = .ok ⟨0x0A :: y :: t, m.update 1 0 1⟩ := adv_ascii hxa (.cons (by decide))
    have h2 : scanHeaders opts ⟨0x0A :: y :: t, m.update 1 0 1⟩ = .ok (.Clip, none, ⟨0x0A :: y :: t, m.update 1 0 1⟩) := by
      have hd : headerDigit (0x0A :: y :: t) = none := by
        rcases hy with rfl | rfl <;> simp [headerDigit, isDigit]
      have h1 : headerHas (0x0A :: y :: t) (b! '+') = false := by simp [headerHas, startsWith, hpy]
      have h2 : headerHas (0x0A :: y :: t) (b! '-') = false := by simp [headerHas, startsWith, hmy]
      unfold scanHeaders
      simp only [cache_whole opts hx, Out.ok_bind, hd, h1, h2, Bool.false_eq_true, ↓reduceIte, Option.isSome_none, Option.bind_none]
      simp [Cur.adv, isBoundary, MStats.update]
    simp only [cache_whole opts hx, Out.ok_bind, h1, h2]
    exact hend _ _
  | strip =>
    refine ⟨((m.update 1 0 1).update 1 0 1).update 1 1 0, ⟨by simp [MStats.update, Chomping.mark], by simp [MStats.update]⟩, ?_⟩
    unfold blockHeader
    have h1 : (⟨x :: (Chomping.strip.mark ++ 0x0A :: y :: t), m⟩ : Cur).adv 1 = .ok ⟨(b! '-') :: 0x0A :: y :: t, m.update 1 0 1⟩ :=
      adv_ascii hxa (.cons (by decide))
    have h2 : scanHeaders opts ⟨(b! '-') :: 0x0A :: y :: t, m.update 1 0 1⟩ = .ok (.Strip, none, ⟨0x0A :: y :: t, (m.update 1 0 1).update 1 0 1⟩) := by
      have hd : headerDigit ((b! '-') :: 0x0A :: y :: t) = none := by simp [headerDigit, isDigit]
      have h1 : headerHas ((b! '-') :: 0x0A :: y :: t) (b! '+') = false := by simp [headerHas, startsWith]
      have h2 : headerHas ((b! '-') :: 0x0A :: y :: t) (b! '-') = true := by simp [headerHas, startsWith]
      unfold scanHeaders
      simp only [cache_whole opts hx, Out.ok_bind, hd, h1, h2, Bool.false_eq_true, ↓reduceIte, Option.isSome_none, Option.bind_none]
      have h3 : (⟨(b! '-') :: 0x0A :: y :: t, m.update 1 0 1⟩ : Cur).adv 1 = .ok ⟨0x0A :: y :: t, (m.update 1 0 1).update 1 0 1⟩ :=
        adv_ascii (by decide) (.cons (by decide))
      simp [h3]
    simp only [cache_whole opts hx, Out.ok_bind, h1, h2]
    exact hend _ _
  | keep =>
    refine ⟨((m.update 1 0 1).update 1 0 1).update 1 1 0, ⟨by simp [MStats.update, Chomping.mark], by simp [MStats.update]⟩, ?_⟩
    unfold blockHeader
    have h1 : (⟨x :: (Chomping.keep.mark ++ 0x0A :: y :: t), m⟩ : Cur).adv 1 = .ok ⟨(b! '+') :: 0x0A :: y :: t, m.update 1 0 1⟩ :=
      adv_ascii hxa (.cons (by decide))
    have h2 : scanHeaders opts ⟨(b! '+') :: 0x0A :: y :: t, m.update 1 0 1⟩ = .ok (.Keep, none, ⟨0x0A :: y :: t, (m.update 1 0 1).update 1 0 1⟩) := by
      have hd : headerDigit ((b! '+') :: 0x0A :: y :: t) = none := by simp [headerDigit, isDigit]
      have h1 : headerHas ((b! '+') :: 0x0A :: y :: t) (b! '+') = true := by simp [headerHas, startsWith]
      have h2 : headerHas ((b! '+') :: 0x0A :: y :: t) (b! '-') = false := by simp [headerHas, startsWith]
      unfold scanHeaders
      simp only [cache_whole opts hx, Out.ok_bind, hd, h1, h2, Bool.false_eq_true, ↓reduceIte, Option.isSome_none, Option.bind_none]
      have h3 : (⟨(b! '+') :: 0x0A :: y :: t, m.update 1 0 1⟩ : Cur).adv 1 = .ok ⟨0x0A :: y :: t, (m.update 1 0 1).update 1 0 1⟩ :=
        adv_ascii (by decide) (.cons (by decide))
      simp [h3]
    simp only [cache_whole opts hx, Out.ok_bind, h1, h2]
    exact hend _ _

/-! ### The end -/

theorem chompCopy_eq {w : Str} {ch : Chomping} {k : Nat} (hw : Ascii w) :
    chompCopy w (chompStyle ch) w.length k = .ok (w ++ newlines (ch.keeps k)) := by
  have hu : ∀ i, fromUtf8Unwrap (ε := ScanError) (w ++ newlines i) = .ok (w ++ newlines i) := by
    intro i
    unfold fromUtf8Unwrap
    rw [if_pos]
    refine validUtf8_ascii ?_
    intro b hb
    rcases List.mem_append.1 hb with h | h
    · exact hw b h
    · exact newlines_ascii b h
  have h0 := hu 0
  simp only [newlines_zero, List.append_nil] at h0
  cases ch with
  | strip => simp [chompCopy, chompStyle, Chomping.keeps, h0]
  | keep => exact hu k
  | clip =>
    cases k with
    | zero => simp [chompCopy, chompStyle, Chomping.keeps, h0]
    | succ k =>
      have := hu 1
      simp only [chompCopy, chompStyle, Chomping.keeps, Nat.zero_lt_succ, ↓reduceIte, show min (k + 1) 1 = 1 by omega]
      rw [List.take_of_length_le (by simp)]
      exact this

theorem slice_mid {p l t r : Str} (hA : Around (p ++ (l ++ t)) r) (hr : r.length ≤ t.length) :
    slice (ε := ScanError) (p ++ (l ++ t)) p.length (p.length + l.length) = .ok l := by
  unfold slice
  rw [hA.boundary (by simp; omega), hA.boundary (by simp; omega)]
  simp

/-- Chomping a borrowed line. -/
theorem chomp_borrow {pre l q : Str} {n k j : Nat} {ch : Chomping} {cur : Cur} (he : BlockEnds n k j q) (hpre : Ascii pre) (hl : LineText l)
    (hq : ∀ b t, q = b :: t → b < 128) :
    scanChomp (pre ++ (l ++ restText n [] k j q)) (chompStyle ch) ⟨cur, [], true, pre.length, pre.length + l.length, k⟩ =
      .ok (l ++ newlines (if ch = .clip ∧ k = 1 ∧ j = 0 ∧ q = [] then 0 else ch.keeps k)) := by
  have hA : Around (pre ++ (l ++ restText n [] k j q)) q := by
    refine ⟨⟨pre ++ (l ++ (newlines k ++ spaces j)), by simp [restText_nil, List.append_assoc], ?_⟩, he.head⟩
    exact Ascii.append hpre (Ascii.append hl.ascii (Ascii.append newlines_ascii spaces_ascii))
  have hlen : q.length ≤ (restText n [] k j q).length := by rw [restText_nil]; simp; omega
  have h0 := slice_mid hA hlen
  -- with the next line break
  have h1 : ∀ k', k = k' + 1 → slice (ε := ScanError) (pre ++ (l ++ restText n [] k j q)) pre.length (pre.length + l.length + 1) = .ok (l ++ newlines 1) := by
    rintro k' rfl
    have e : pre ++ (l ++ restText n [] (k' + 1) j q) = pre ++ ((l ++ newlines 1) ++ (newlines k' ++ (spaces j ++ q))) := by
      simp [restText_nil, newlines, List.replicate_succ, List.append_assoc]
    rw [e] at hA ⊢
    have := slice_mid hA (by simp; omega)
    simpa [Nat.add_assoc] using this
  cases ch with
  | strip =>
    simp only [scanChomp, chompStyle, chompBorrow, Chomping.keeps]
    simp [h0]
  | keep =>
    match k with
    | 0 => simp [scanChomp, chompStyle, chompBorrow, Chomping.keeps, h0]
    | 1 => simp [scanChomp, chompStyle, chompBorrow, Chomping.keeps, h1 0 rfl]
    | k + 2 =>
      have := chompCopy_eq (w := l ++ newlines (k + 2)) (ch := .keep) (k := 0) (Ascii.append hl.ascii newlines_ascii)
      simp only [scanChomp, chompStyle, Chomping.keeps, ↓reduceIte, h0, Out.ok_bind]
      simp only [chompStyle, Chomping.keeps, newlines_zero, List.append_nil] at this
      simpa [chompCopy, newlines] using this
  | clip =>
    cases k with
    | zero => simp [scanChomp, chompStyle, chompBorrow, Chomping.keeps, h0]
    | succ k =>
      have hrest : slice (ε := ScanError) (pre ++ (l ++ restText n [] (k + 1) j q)) (pre.length + l.length)
          (pre ++ (l ++ restText n [] (k + 1) j q)).length = .ok (restText n [] (k + 1) j q) := by
        unfold slice
        have hb : isBoundary (pre ++ (l ++ restText n [] (k + 1) j q)) (pre ++ (l ++ restText n [] (k + 1) j q)).length = true := by
          simp [isBoundary]
        rw [hA.boundary (by simp; omega), hb, if_pos (by simp), ← List.append_assoc, ← List.length_append, List.drop_left]
        simp only [List.length_append]
        rw [List.take_of_length_le (by omega)]
      have hw : widthOf ((restText n [] (k + 1) j q).drop 1) = if k = 0 ∧ j = 0 ∧ q = [] then 0 else 1 := by
        rw [restText_nil, newlines_succ, List.cons_append, List.drop_succ_cons, List.drop_zero]
        cases k with
        | succ k => simp [newlines_succ, widthOf]
        | zero =>
          cases j with
          | succ j => simp [spaces_succ, widthOf]
          | zero =>
            cases q with
            | nil => simp [widthOf]
            | cons b t =>
              have := hq b t rfl
              simp only [newlines_zero, spaces_zero, List.nil_append, widthOf]
              rw [if_pos this]
              simp
      unfold scanChomp
      rw [if_pos rfl, if_neg (by simp [chompStyle])]
      simp only [chompStyle, chompBorrow, ↓reduceIte, Nat.zero_lt_succ, hrest, Out.ok_bind, hw, Chomping.keeps]
      simp only [show min (k + 1) 1 = 1 by omega]
      have hk : k + 1 = 1 ↔ k = 0 := by omega
      simp only [hk, true_and]
      split
      · simp [h0]
      · simp [h1 k rfl]

/-- The first line, when borrowing. -/
theorem blockLoop_borrow (hx : opts.extendable = false) {base : Str} {read : Nat} {fold : Bool} {n fuel : Nat} {c c1 : Cur} {c2 c3 : Cur}
    {s0 k1 k2 : Nat} (hs0 : s0 ≠ 0) (hc : c.stats.column = n) (hne : c.buf ≠ [])
    (h1 : toBreak opts (base.length + 1) c = .ok c1) (h2 : eatBreak opts c1 0 = .ok (c2, k1)) (h3 : scanIndent opts n c2 k1 = .ok (c3, k2)) :
    blockLoop opts base read fold n (fuel + 1) ⟨c, [], true, s0, 0, 0⟩ =
      blockLoop opts base read fold n fuel ⟨c3, [], true, s0, c1.stats.read - read, k2⟩ := by
  have hj : blockJoin fold 0 = [] := by cases fold <;> rfl
  rw [blockLoop, if_pos (by simp [hc, hne])]
  simp only [BlockSt.trapdoor, Nat.lt_irrefl, decide_false, Bool.and_false, Bool.false_eq_true, ↓reduceIte, Out.ok_bind, cache_whole opts hx, h1, h2, h3, hj,
    hs0, List.nil_append]

/-- The trapdoor. -/
theorem blockLoop_trapdoor {base l : Str} {read : Nat} {fold : Bool} {n fuel s0 p0 k : Nat} {c : Cur} (hc : c.stats.column = n) (hne : c.buf ≠ [])
    (hs : slice (ε := ScanError) base s0 p0 = .ok l) :
    blockLoop opts base read fold n (fuel + 1) ⟨c, [], true, s0, p0, k + 1⟩ = blockLoop opts base read fold n (fuel + 1) ⟨c, l, false, s0, p0, k + 1⟩ := by
  rw [blockLoop, if_pos (by simp [hc, hne]), blockLoop, if_pos (by simp [hc, hne])]
  simp only [BlockSt.trapdoor, Nat.zero_lt_succ, decide_true, Bool.and_self, ↓reduceIte, hs, Out.ok_bind, List.nil_append, Bool.false_and,
    Bool.false_eq_true]

theorem lines_borrow_one (hx : opts.extendable = false) {read : Nat} {fold : Bool} {n k j : Nat} {pre q l : Str} {m : MStats} (hl : LineText l) (hne : l ≠ [])
    (he : BlockEnds n k j q) (hm : m.column = n) (hr : m.read = read + pre.length) (hp : pre ≠ []) :
    ∃ m', blockLoop opts (pre ++ (l ++ restText n [] k j q)) read fold n ((pre ++ (l ++ restText n [] k j q)).length + 1)
        ⟨⟨l ++ restText n [] k j q, m⟩, [], true, pre.length, 0, 0⟩ = .ok ⟨⟨q, m'⟩, [], true, pre.length, pre.length + l.length, k⟩ := by
  obtain ⟨m1, m2, m3, hc, h1, h2, h3, h4⟩ := round_last hx (fuel := (pre ++ (l ++ restText n [] k j q)).length + 1) (m := m) hl he (by simp; omega) (by omega)
  have hp' : 1 ≤ pre.length := by cases pre with | nil => exact absurd rfl hp | cons _ _ => simp
  obtain ⟨f, hf⟩ : ∃ f, (pre ++ (l ++ restText n [] k j q)).length = f + 1 := ⟨(pre ++ (l ++ restText n [] k j q)).length - 1, by simp; omega⟩
  refine ⟨m3, ?_⟩
  rw [blockLoop_borrow hx (c1 := ⟨restText n [] k j q, m1⟩) (by omega) hm (by simp [hne]) h1 h2 h3, hf, blockLoop_end h4]
  have : m1.read - read = pre.length + l.length := by have := hc.1; omega
  rw [this]

theorem restText_ascii {n k j : Nat} {q : Str} {ls : List BlockLine} (h : ∀ l ∈ ls, LineText l.text) :
    ∃ r, restText n ls k j q = r ++ q ∧ Ascii r := by
  refine ⟨moreLines n ls ++ (newlines k ++ spaces j), by simp [restText, List.append_assoc], Ascii.append ?_ (Ascii.append newlines_ascii spaces_ascii)⟩
  intro b hb
  obtain ⟨l, hl, hb⟩ := List.mem_flatMap.1 hb
  exact Ascii.append (Ascii.append newlines_ascii spaces_ascii) (h l hl).ascii b hb

theorem lines_borrow (hx : opts.extendable = false) {read : Nat} {fold : Bool} {n k j : Nat} {pre q l : Str} {l' : BlockLine} {ls : List BlockLine} {m : MStats}
    (hl : LineText l) (hne : l ≠ []) (hls : ∀ x ∈ l' :: ls, LineText x.text ∧ x.text ≠ []) (hpre : Ascii pre)
    (he : BlockEnds n k j q) (hm : m.column = n) (hr : m.read = read + pre.length) (hp : pre ≠ []) :
    ∃ m', blockLoop opts (pre ++ (l ++ restText n (l' :: ls) k j q)) read fold n ((pre ++ (l ++ restText n (l' :: ls) k j q)).length + 1)
        ⟨⟨l ++ restText n (l' :: ls) k j q, m⟩, [], true, pre.length, 0, 0⟩ =
      .ok ⟨⟨q, m'⟩, l ++ joined fold (l' :: ls), false, 0, (l ++ joined fold (l' :: ls)).length, k⟩ := by
  obtain ⟨hl', hne'⟩ := hls l' (by simp)
  have hmore : ls.length ≤ (restText n ls k j q).length := by
    clear hls
    induction ls with
    | nil => simp
    | cons l ls ih => rw [restText_cons]; simp; omega
  obtain ⟨m1, m2, m3, hc, h1, h2, h3, h4⟩ := round_next hx (fuel := (pre ++ (l ++ restText n (l' :: ls) k j q)).length + 1) (m := m) (ls := ls) hl hl' he (by simp; omega)
  have hp' : 1 ≤ pre.length := by cases pre with | nil => exact absurd rfl hp | cons _ _ => simp
  have hl1 : 1 ≤ l'.text.length := by cases h : l'.text with | nil => exact absurd h hne' | cons _ _ => simp
  have hlen : (pre ++ (l ++ restText n (l' :: ls) k j q)).length = pre.length + l.length + (1 + l'.empty + n + l'.text.length + (restText n ls k j q).length) := by
    rw [restText_cons]; simp; omega
  have hmr : m1.read - read = pre.length + l.length := by have := hc.1; omega
  have hA : Around (pre ++ (l ++ restText n (l' :: ls) k j q)) q := by
    obtain ⟨r, hr, hra⟩ := restText_ascii (n := n) (k := k) (j := j) (q := q) (ls := l' :: ls) fun x h => (hls x h).1
    exact ⟨⟨pre ++ (l ++ r), by rw [hr]; simp [List.append_assoc], Ascii.append hpre (Ascii.append hl.ascii hra)⟩, he.head⟩
  have hsl := slice_mid hA (by
    rw [restText_cons]; simp [restText]; omega)
  obtain ⟨f, hf⟩ : ∃ f, (pre ++ (l ++ restText n (l' :: ls) k j q)).length = f + 1 := ⟨(pre ++ (l ++ restText n (l' :: ls) k j q)).length - 1, by rw [hlen]; omega⟩
  obtain ⟨m', h5⟩ := lines_copy hx (base := pre ++ (l ++ restText n (l' :: ls) k j q)) (read := read) (fold := fold) (l := l'.text) (v := l) (ls := ls) (m := m3) (fuel := f + 1)
    (k0 := l'.empty + 1) (s0 := pre.length) (p0 := pre.length + l.length) hl' hne' (fun x hx => hls x (by simp [hx])) he h4 (by rw [hlen]; simp; omega) (by omega)
  refine ⟨m', ?_⟩
  rw [blockLoop_borrow hx (c1 := ⟨restText n (l' :: ls) k j q, m1⟩) (by omega) hm (by simp [hne]) h1 h2 h3, hf, hmr,
    blockLoop_trapdoor h4 (by simp [hne']) hsl, h5, joined_cons]
  simp only [List.append_assoc]

/-- What the scanner makes of a block scalar: its value, but it loses the line break at the end of a single
line, when the text ends there. -/
def scannedValue (x : BlockScalar) (j : Nat) (q : Str) : Str :=
  x.content ++ newlines (if x.first.empty = 0 ∧ x.more = [] ∧ x.chomp = .clip ∧ x.breaks = 1 ∧ j = 0 ∧ q = [] then 0 else x.chomp.keeps x.breaks)

theorem joined_ascii {fold : Bool} {ls : List BlockLine} (h : ∀ l ∈ ls, LineText l.text) : Ascii (joined fold ls) := by
  induction ls with
  | nil => cases fold <;> (intro b hb; cases hb)
  | cons l ls ih =>
    rw [joined_cons]
    refine Ascii.append ?_ (Ascii.append (h l (by simp)).ascii (ih fun l hl => h l (by simp [hl])))
    cases fold with
    | false => exact newlines_ascii
    | true =>
      unfold blockJoin
      cases l.empty with
      | zero => exact spaces_ascii (n := 1)
      | succ n => exact newlines_ascii (n := n + 1)

/-- The text of a block scalar, and what follows it. -/
theorem written_eq {x : BlockScalar} {n j : Nat} {q : Str} :
    x.written n ++ (spaces j ++ q) =
      (((if x.fold then b! '>' else b! '|') :: (x.chomp.mark ++ 0x0A :: newlines x.first.empty)) ++ spaces n) ++
        (x.first.text ++ restText n x.more x.breaks j q) := by
  simp [BlockScalar.written, restText, newlines_succ, List.append_assoc]

/-- The parts of `scanBlockEager`, at a block scalar. -/
theorem scanBlockEager_parts (hx : opts.extendable = false) {x : BlockScalar} {b n j : Nat} {q : Str} {m : MStats} (hok : x.Ok) (hbe : x.Before n j q)
    (hb : b < n) :
    ∃ c1 d st, blockHeader opts ⟨x.written n ++ (spaces j ++ q), m⟩ = .ok (chompStyle x.chomp, none, c1) ∧
      blockIndent opts none b c1 = .ok d ∧
      blockLoop opts (x.written n ++ (spaces j ++ q)) m.read x.fold d.indent ((x.written n ++ (spaces j ++ q)).length + 1)
        { cur := d.cur
          scratch := if d.canBorrow then [] else List.replicate d.lines 0x0A
          canBorrow := d.canBorrow
          start := if d.canBorrow then d.cur.stats.read - m.read else 0 } = .ok st ∧
      scanChomp (x.written n ++ (spaces j ++ q)) (chompStyle x.chomp) st = .ok (scannedValue x j q) ∧ st.cur.buf = q ∧
      st.lines = x.breaks ∧ (st.canBorrow = true ↔ x.first.empty = 0 ∧ x.more = []) := by
  obtain ⟨hlines, hfirst⟩ := hok
  obtain ⟨hj, hlast, hqq⟩ := hbe
  have hl : LineText x.first.text := (hlines x.first (by simp)).2
  have hne : x.first.text ≠ [] := (hlines x.first (by simp)).1
  have hls : ∀ l ∈ x.more, LineText l.text ∧ l.text ≠ [] := fun l h => ⟨(hlines l (by simp [h])).2, (hlines l (by simp [h])).1⟩
  have hq128 : ∀ b t, q = b :: t → b < 128 := by
    rintro b t rfl
    rcases hqq with h | ⟨b', t', h, h1, h2⟩
    · cases h
    · cases h; byte_omega
  have he : BlockEnds n x.breaks j q := by
    refine ⟨hj, hlast, fun b t h => .inl (hq128 b t h), ?_⟩
    rcases hqq with rfl | ⟨b, t, rfl, h1, h2⟩
    · rfl
    · have hnb : isBreak (b :: t) = false := NoBrk.isBreak (by unfold NoBrk; byte_omega)
      simp only [isWhiteSpace, hnb, isBlank, startsWith, List.head?_cons, Bool.or_false, Bool.or_eq_false_iff, beq_eq_false_iff_ne, ne_eq, Option.some.injEq]
      constructor <;> (rintro rfl; revert h1; decide)
  generalize hI : (if x.fold then b! '>' else b! '|') = ind
  have hind : ind < 128 := by rw [← hI]; split <;> decide
  -- the text
  have htext := written_eq (x := x) (n := n) (j := j) (q := q)
  rw [hI] at htext
  have hrest := restText_head (ls := x.more) he
  have hT : HeadOk (x.first.text ++ restText n x.more x.breaks j q) := HeadOk.append hl.ascii hrest.1
  have hwT : isWhiteSpace (x.first.text ++ restText n x.more x.breaks j q) = false := by
    cases ht : x.first.text with
    | nil => exact absurd ht hne
    | cons c t =>
      have hf := hfirst x.first (by simp) (.inl rfl)
      rw [ht] at hl hf
      simp only [List.cons_append, isWhiteSpace, hl.noBreak, isBlank, startsWith, List.head?_cons, Bool.or_false, Bool.or_eq_false_iff, beq_eq_false_iff_ne, ne_eq,
        Option.some.injEq]
      constructor
      · rintro rfl; exact (hf t).1 rfl
      · rintro rfl; exact (hf t).2 rfl
  -- the header
  obtain ⟨n', rfl⟩ : ∃ n', n = n' + 1 := ⟨n - 1, by omega⟩
  obtain ⟨m1, hm1, hh⟩ : ∃ m1, MovedTo m m1 (x.chomp.mark.length + 2) 0 ∧
      blockHeader opts ⟨x.written (n' + 1) ++ (spaces j ++ q), m⟩ =
        .ok (chompStyle x.chomp, none, ⟨newlines x.first.empty ++ (spaces (n' + 1) ++ (x.first.text ++ restText (n' + 1) x.more x.breaks j q)), m1⟩) := by
    rw [htext]
    simp only [List.cons_append, List.append_assoc]
    cases x.first.empty with
    | zero => exact blockHeader_eq hx hind (.inr rfl)
    | succ e => exact blockHeader_eq hx hind (.inl rfl)
  obtain ⟨m2, hm2, hd⟩ := detectIndent_first hx (e := x.first.empty) (m := m1) hm1.2 hb hT hwT
  have hbase : (ind :: (x.chomp.mark ++ 0x0A :: newlines x.first.empty) ++ spaces (n' + 1)).length = x.chomp.mark.length + 2 + x.first.empty + (n' + 1) := by
    simp; omega
  have hread : m2.read - m.read = (ind :: (x.chomp.mark ++ 0x0A :: newlines x.first.empty) ++ spaces (n' + 1)).length := by
    rw [hbase]; have := hm1.1; have := hm2.1; omega
  have hpreA : Ascii (ind :: (x.chomp.mark ++ 0x0A :: newlines x.first.empty) ++ spaces (n' + 1)) := by
    refine Ascii.append ?_ spaces_ascii
    intro c hc
    simp only [List.mem_cons, List.mem_append] at hc
    rcases hc with rfl | hc | rfl | hc
    · exact hind
    · cases hch : x.chomp <;> simp only [hch, Chomping.mark] at hc
      · simp at hc; subst hc; decide
      · cases hc
      · simp at hc; subst hc; decide
    · decide
    · exact newlines_ascii c hc
  refine ⟨_, _, Exists.imp (fun st r => ⟨hh, hd, r⟩) ?_⟩
  simp only [hread]
  rw [htext]
  generalize hpre : ind :: (x.chomp.mark ++ 0x0A :: newlines x.first.empty) ++ spaces (n' + 1) = pre at *
  have hmore : x.more.length ≤ (restText (n' + 1) x.more x.breaks j q).length := by
    clear hpre hlines hfirst hlast hqq hls he hrest hT hwT hh hd
    generalize x.more = ls
    induction ls with
    | nil => simp
    | cons l ls ih => rw [restText_cons]; simp; omega
  have hlen : (pre ++ (x.first.text ++ restText (n' + 1) x.more x.breaks j q)).length + 1 =
      pre.length + x.first.text.length + (restText (n' + 1) x.more x.breaks j q).length + 1 := by simp; omega
  have hl1 : 1 ≤ x.first.text.length := by cases h : x.first.text <;> simp_all
  have hj0 : blockJoin x.fold 0 = [] := by cases x.fold <;> rfl
  have hp1 : 2 ≤ pre.length := by omega
  have hpn : pre ≠ [] := by rintro rfl; simp at hp1
  by_cases hem : x.first.empty = 0
  · -- borrowing
    simp only [hem, decide_true, ↓reduceIte]
    cases hmo : x.more with
    | nil =>
      obtain ⟨m3, h3⟩ := lines_borrow_one hx (read := m.read) (fold := x.fold) hl hne he hm2.2 (pre := pre) (by have := hm2.1; have := hm1.1; omega) hpn
      refine ⟨_, h3, ?_, rfl, rfl, by simp⟩
      rw [chomp_borrow he hpreA hl hq128]
      simp [scannedValue, hem, hmo, BlockScalar.content, foldedLines, moreLines]
    | cons l' ls =>
      obtain ⟨m3, h3⟩ := lines_borrow hx (read := m.read) (fold := x.fold) hl hne (hmo ▸ hls) hpreA he hm2.2 (by have := hm2.1; have := hm1.1; omega) hpn
      refine ⟨_, h3, ?_, rfl, rfl, by simp⟩
      simp only [scanChomp, Bool.false_eq_true, ↓reduceIte]
      rw [chompCopy_eq]
      · simp [scannedValue, hem, hmo, BlockScalar.content, joined, Out.ok_bind]
      · exact Ascii.append hl.ascii (joined_ascii fun l h => (hls l (by rw [hmo]; exact h)).1)
  · -- copying
    simp only [hem, decide_false, Bool.false_eq_true, ↓reduceIte]
    obtain ⟨m3, h3⟩ := lines_copy hx (base := pre ++ (x.first.text ++ restText (n' + 1) x.more x.breaks j q)) (read := m.read) (fold := x.fold) (k0 := 0) (s0 := 0)
      (p0 := 0) (v := List.replicate x.first.empty 0x0A) (m := m2) (fuel := (pre ++ (x.first.text ++ restText (n' + 1) x.more x.breaks j q)).length + 1)
      hl hne hls he hm2.2 (by simp) (by rw [hlen]; omega)
    refine ⟨_, h3, ?_, rfl, rfl, by simp⟩
    simp only [scanChomp, Bool.false_eq_true, ↓reduceIte]
    rw [chompCopy_eq]
    · simp [scannedValue, hem, BlockScalar.content, hj0, joined, newlines, Out.ok_bind]
    · rw [hj0]
      exact Ascii.append (Ascii.append newlines_ascii fun _ h => by cases h) (Ascii.append hl.ascii (joined_ascii fun l h => (hls l h).1))

theorem scanBlockEager_text (hx : opts.extendable = false) {x : BlockScalar} {b n j : Nat} {q : Str} {m : MStats} (hok : x.Ok) (hbe : x.Before n j q)
    (hb : b < n) :
    ∃ m', scanBlockEager opts b x.fold ⟨x.written n ++ (spaces j ++ q), m⟩ = .ok (.Scalar (scannedValue x j q) (blockStyle x.fold), ⟨q, m'⟩) := by
  obtain ⟨c1, d, st, h1, h2, h3, h4, h5, -⟩ := scanBlockEager_parts (m := m) hx hok hbe hb
  rw [scanBlockEager_eq]
  simp only [h1, h2, h3, h4, Out.ok_bind]
  exact ⟨st.cur.stats, by rw [← h5]⟩

end Yary
