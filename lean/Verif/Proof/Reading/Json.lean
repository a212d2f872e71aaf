import Verif.Spec.Json
import Verif.Proof.Reading.Stream
import Verif.Proof.Scan.Written

/-! # JSON texts are texts of the grammar -/

namespace Yary.Reading

open Spec

variable {base : Str} {tags : List (Str × Str)}

theorem linesOf_cons {x : Byte} {t : Str} (g2 : x ≠ 13) (g3 : x ≠ 10) (g4 : ∀ u, x = 194 → t ≠ 133 :: u) (g5 : ∀ u, x = 226 → t ≠ 128 :: 168 :: u)
    (g6 : ∀ u, x = 226 → t ≠ 128 :: 169 :: u) : (linesOf (x :: t)).length = (linesOf t).length := by
  generalize hs : x :: t = s
  rw [linesOf.eq_def]
  split
  · cases hs
  · cases hs; exact absurd rfl g2
  · cases hs; exact absurd rfl g2
  · cases hs; exact absurd rfl g3
  · cases hs; exact absurd rfl (g4 _ rfl)
  · cases hs; exact absurd rfl (g5 _ rfl)
  · cases hs; exact absurd rfl (g6 _ rfl)
  · cases hs
    cases hm : linesOf t with
    | nil => exact absurd hm (linesOf_ne t)
    | cons => simp

theorem linesOf_snoc (q : Str) (b : Byte) (h1 : b < 128) (h2 : b ≠ 0x0A) (h3 : b ≠ 0x0D) : (linesOf (q ++ [b])).length = (linesOf q).length := by
  induction q using linesOf.induct with
  | case1 => 
    rw [List.nil_append]
    rw [linesOf.eq_def]
    split <;> simp_all [linesOf]
  | case2 t ih => simp [linesOf, ih]
  | case3 t h ih =>
    have : (linesOf (0x0D :: (t ++ [b]))) = [] :: linesOf (t ++ [b]) := by
      rw [linesOf]
      intro t' ht'
      cases t with
      | nil => simp at ht'; exact h2 ht'.1
      | cons x t => simp at ht'; exact h _ (by rw [ht'.1])
    simp [linesOf, ih, this]
  | case4 t ih => simp [linesOf, ih]
  | case5 t ih => simp [linesOf, ih]
  | case6 t ih => simp [linesOf, ih]
  | case7 t ih => simp [linesOf, ih]
  | case8 x t g1 g2 g3 g4 g5 g6 hm => exact absurd hm (linesOf_ne t)
  | case9 x t g1 g2 g3 g4 g5 g6 l ls hm ih =>
    rw [List.cons_append, linesOf_cons g2 g3 (fun u h h' => ?_) (fun u h h' => ?_) (fun u h h' => ?_), linesOf_cons g2 g3 (fun u h h' => g4 u h h') (fun u h h' => g5 u h h') (fun u h h' => g6 u h h'), ih]
    · cases t with
      | nil => simp at h'; byte_omega
      | cons a t => simp at h'; exact g4 _ h (by rw [h'.1])
    · rcases t with _ | ⟨a, _ | ⟨c, t⟩⟩
      · simp at h'
      · simp at h'; byte_omega
      · simp at h'; exact g5 _ h (by rw [h'.1, h'.2.1])
    · rcases t with _ | ⟨a, _ | ⟨c, t⟩⟩
      · simp at h'
      · simp at h'; byte_omega
      · simp at h'; exact g6 _ h (by rw [h'.1, h'.2.1])
  
theorem linesOf_append (q : Str) {w : Str} (h : ∀ b ∈ w, b < 128 ∧ NoBrk b) : (linesOf (q ++ w)).length = (linesOf q).length := by
  induction w generalizing q with
  | nil => simp
  | cons b w ih =>
    have h1 := h b (by simp)
    rw [List.append_cons, ih _ fun x hx => h x (by simp [hx]), linesOf_snoc q b h1.1 h1.2.2.1 h1.2.1]

/-- Within a line. -/
theorem same_line {q w k : Str} (hb : base = q ++ (w ++ k)) (h : ∀ b ∈ w, b < 128 ∧ NoBrk b) :
    lineOf base k = lineOf base (w ++ k) ∧ (place base k).read = (place base (w ++ k)).read + w.length := by
  have h1 : place base (w ++ k) = posAfter {} q := place_of hb
  have h2 : place base k = posAfter {} (q ++ w) := place_of (by rw [hb]; simp)
  unfold lineOf
  rw [h1, h2]
  simp [posAfter, linesOf_append q h, Nat.add_assoc]

/-! ## White space -/

/-- Something is next. -/
def Solid (t : Str) : Prop := t = [] ∨ ∃ b u, t = b :: u ∧ 0x20 < b ∧ b < 0x7F ∧ b ≠ 0x23

theorem Solid.skips {comments : Bool} {t : Str} (h : Solid t) : Skips comments t 0 t := by
  rcases h with rfl | ⟨b, u, rfl, h1, h2, h3⟩
  · exact .done (by simp) (by simp) (by rw [atBreak_iff]; simp [isBreak]) (by simp)
  · refine .done (fun t h => ?_) (fun t h => ?_) ?_ (fun _ t h => ?_)
    · simp only [List.cons.injEq] at h; byte_omega
    · simp only [List.cons.injEq] at h; byte_omega
    · refine not_break_of ⟨?_, ?_, ?_, ?_⟩ <;> byte_omega
    · simp only [List.cons.injEq] at h; byte_omega

theorem space_skips {comments : Bool} {t : Str} (h : Solid t) : ∀ (n : Nat) (a : Str), a.length ≤ n → JsonSpace a → ∃ n, Skips comments (a ++ t) n t := by
  intro n
  induction n with
  | zero =>
    intro a hn _
    rw [List.length_eq_zero_iff.1 (Nat.le_zero.1 hn)]
    exact ⟨0, h.skips⟩
  | succ n ih =>
    intro a hn ha
    cases a with
    | nil => exact ⟨0, h.skips⟩
    | cons b a =>
      have ha' : JsonSpace a := fun x hx => ha x (by simp [hx])
      obtain ⟨k, hk⟩ := ih a (by simpa using hn) ha'
      rcases ha b (by simp) with rfl | rfl | rfl | rfl
      · exact ⟨k, .blank (.inl rfl) hk⟩
      · exact ⟨k, .blank (.inr rfl) hk⟩
      · exact ⟨k + 1, .line (w := [0x0A]) ⟨by decide, fun h => by cases h.1⟩ hk⟩
      · by_cases hlf : ∃ u, a ++ t = 0x0A :: u
        · obtain ⟨u, hu⟩ := hlf
          cases a with
          | nil =>
            rw [List.nil_append] at hu
            rcases h with h | ⟨b, v, h, h1, -⟩
            · rw [h] at hu; cases hu
            · rw [h] at hu
              simp only [List.cons.injEq] at hu
              byte_omega
          | cons c a =>
            simp only [List.cons_append, List.cons.injEq] at hu
            obtain ⟨rfl, rfl⟩ := hu
            obtain ⟨k', hk'⟩ := ih a (by simp at hn; omega) fun x hx => ha' x (by simp [hx])
            exact ⟨k' + 1, .line (w := [0x0D, 0x0A]) ⟨by decide, fun h => by cases h.1⟩ hk'⟩
        · exact ⟨k + 1, .line (w := [0x0D]) ⟨by decide, fun h => hlf h.2⟩ hk⟩

theorem space_gap {a t : Str} (ha : JsonSpace a) (h : Solid t) : Gap (a ++ t) t := space_skips h _ a (Nat.le_refl _) ha

theorem blank_space {a : Str} (h : JsonBlank a) : JsonSpace a := fun b hb => by
  rcases h b hb with h | h
  · exact .inl h
  · exact .inr (.inl h)

/-! ## Words and strings -/

theorem string_pieces {w : Str} {cs : List Char} (h : JsonString w cs) : ∃ ps, w = piecesText ps ∧ cs = ps.map (·.2) ∧ ∀ p ∈ ps, IsPiece p.1 p.2 := by
  induction h with
  | nil => exact ⟨[], rfl, rfl, by simp⟩
  | @cons w w' c cs h t ih =>
    obtain ⟨ps, rfl, rfl, hp⟩ := ih
    refine ⟨(w, c) :: ps, by simp [piecesText], rfl, ?_⟩
    intro p hm
    rcases List.mem_cons.1 hm with rfl | hm
    · cases h with
      | self h hq hb => exact .inr ⟨rfl, .inr h, hq, hb⟩
      | @letter b c h =>
        refine .inl ⟨[b], rfl, .letter ?_⟩
        simp only [jsonEscapes, List.mem_cons, Prod.mk.injEq, List.not_mem_nil, or_false] at h
        rcases h with ⟨rfl, rfl⟩ | ⟨rfl, rfl⟩ | ⟨rfl, rfl⟩ | ⟨rfl, rfl⟩ | ⟨rfl, rfl⟩ | ⟨rfl, rfl⟩ | ⟨rfl, rfl⟩ | ⟨rfl, rfl⟩ <;> decide
      | @code d c hl h => exact .inl ⟨b! 'u' :: d, rfl, .code (by rw [hl]; decide) h⟩
    · exact hp p hm

theorem string_bytes {w : Str} {cs : List Char} (h : JsonString w cs) : ∀ b ∈ w, b < 128 ∧ NoBrk b := by
  obtain ⟨ps, rfl, rfl, hp⟩ := string_pieces h
  exact pieces_bytes hp

/-- A string is a leaf, anywhere. -/
theorem string_leaf {w : Str} {cs : List Char} (h : JsonString w cs) (p : Spot) (kind : NodeKind) (r : Str) :
    Leaf base tags p kind (b! '"' :: (w ++ b! '"' :: r)) [jsonString kind cs] r := by
  obtain ⟨ps, rfl, rfl, hp⟩ := string_pieces h
  have := Leaf.scalar (base := base) (tags := tags) (p := p) (kind := kind) .none usable_none
    (Word.quoted (base := base) (p := p) (single := false) (quoted_pieces hp r))
  simpa [quoteMark, quoteStyle, scalarTag, jsonString] using this

/-- The bytes of words. -/
def WordByte (b : Byte) : Prop := JsonDigit b ∨ (0x61 ≤ b ∧ b ≤ 0x7A) ∨ b = b! '-' ∨ b = b! '+' ∨ b = b! '.' ∨ b = b! 'E'

theorem number_bytes {w : Str} (h : JsonNumber w) : (∀ b ∈ w, WordByte b) ∧
    ((∃ b t, w = b :: t ∧ JsonDigit b) ∨ ∃ b t, w = b! '-' :: b :: t ∧ JsonDigit b) := by
  cases h with
  | @mk s i f e hs hi hf he =>
    have e0 : (bytes! "0" : Str) = [0x30] := by decide
    have em : (bytes! "-" : Str) = [0x2D] := by decide
    have ep : (bytes! "+" : Str) = [0x2B] := by decide
    have hi1 : (∀ b ∈ i, JsonDigit b) ∧ i ≠ [] := by
      rcases hi with rfl | hi
      · rw [e0]
        exact ⟨by intro b hb; simp only [List.mem_singleton] at hb; subst hb; unfold JsonDigit; decide, by simp⟩
      · exact ⟨hi.1.2, hi.1.1⟩
    have hf1 : ∀ b ∈ f, WordByte b := by
      rcases hf with rfl | ⟨d, rfl, hd⟩
      · simp
      · intro b hb
        rcases List.mem_cons.1 hb with rfl | hb
        · unfold WordByte JsonDigit; decide
        · exact .inl (hd.2 b hb)
    have he1 : ∀ b ∈ e, WordByte b := by
      rcases he with rfl | ⟨x, sg, d, rfl, hx, hsg, hd⟩
      · simp
      · intro b hb
        simp only [List.mem_cons, List.mem_append] at hb
        rcases hb with rfl | hb | hb
        · rcases hx with rfl | rfl <;> (unfold WordByte JsonDigit; decide)
        · rcases hsg with rfl | rfl | rfl
          · cases hb
          · rw [ep] at hb; simp only [List.mem_singleton] at hb; subst hb; unfold WordByte JsonDigit; decide
          · rw [em] at hb; simp only [List.mem_singleton] at hb; subst hb; unfold WordByte JsonDigit; decide
        · exact .inl (hd.2 b hb)
    obtain ⟨hi1, hi2⟩ := hi1
    refine ⟨?_, ?_⟩
    · intro b hb
      simp only [List.mem_append] at hb
      rcases hb with hb | hb | hb | hb
      · rcases hs with rfl | rfl
        · cases hb
        · rw [em] at hb; simp only [List.mem_singleton] at hb; subst hb; unfold WordByte JsonDigit; decide
      · exact .inl (hi1 b hb)
      · exact hf1 b hb
      · exact he1 b hb
    · cases i with
      | nil => exact absurd rfl hi2
      | cons x i =>
        rcases hs with rfl | rfl
        · exact .inl ⟨x, _, rfl, hi1 x (by simp)⟩
        · exact .inr ⟨x, _, rfl, hi1 x (by simp)⟩

theorem word_bytes {w : Str} (h : JsonWord w) : (∀ b ∈ w, WordByte b) ∧
    ((∃ b t, w = b :: t ∧ (JsonDigit b ∨ 0x61 ≤ b ∧ b ≤ 0x7A)) ∨ ∃ b t, w = b! '-' :: b :: t ∧ JsonDigit b) := by
  rcases h with rfl | rfl | rfl | h
  · exact ⟨by unfold WordByte JsonDigit; decide, .inl ⟨_, _, rfl, .inr (by decide)⟩⟩
  · exact ⟨by unfold WordByte JsonDigit; decide, .inl ⟨_, _, rfl, .inr (by decide)⟩⟩
  · exact ⟨by unfold WordByte JsonDigit; decide, .inl ⟨_, _, rfl, .inr (by decide)⟩⟩
  · obtain ⟨h1, h2⟩ := number_bytes h
    refine ⟨h1, ?_⟩
    rcases h2 with ⟨b, t, h2, h3⟩ | h2
    · exact .inl ⟨b, t, h2, .inl h3⟩
    · exact .inr h2

theorem word_no_stop {block : Bool} {b : Byte} {t : Str} (h : WordByte b) : ¬ PlainStops block (b :: t) := by
  have hb : 0x20 < b ∧ b < 0x7F ∧ b ≠ b! ':' ∧ b ∉ bytes! ",[]{}" := by
    have : (bytes! ",[]{}" : Str) = [0x2C, 0x5B, 0x5D, 0x7B, 0x7D] := by decide
    rw [this]
    unfold WordByte JsonDigit at h
    simp only [List.mem_cons, List.not_mem_nil, or_false]
    byte_omega
  rintro (h | h | ⟨u, h, -⟩ | ⟨-, c, u, h, hc⟩)
  · cases h
  · rcases h with ⟨u, h | h⟩ | h
    · simp only [List.cons.injEq] at h; byte_omega
    · simp only [List.cons.injEq] at h; byte_omega
    · exact not_break_of (by unfold NoBrk; byte_omega) h
  · simp only [List.cons.injEq] at h; exact hb.2.2.1 h.1
  · simp only [List.cons.injEq] at h; rw [← h.1] at hc; exact hb.2.2.2 hc

/-- What may follow a value: the end, in the block context, or white space and an indicator. -/
def JsonNext (block : Bool) (r : Str) : Prop :=
  ∃ a t, r = a ++ t ∧ JsonSpace a ∧ (if block then t = [] else ∃ b u, t = b :: u ∧ b ∈ bytes! ",]}")

theorem next_solid {block : Bool} {t : Str} (h : if block then t = [] else ∃ b u, t = b :: u ∧ b ∈ bytes! ",]}") : Solid t ∧ PlainStops block t := by
  cases block with
  | true => exact ⟨.inl h, .inl h⟩
  | false =>
    simp only [Bool.false_eq_true, ↓reduceIte] at h
    obtain ⟨b, u, rfl, hb⟩ := h
    have : (bytes! ",]}" : Str) = [0x2C, 0x5D, 0x7D] := by decide
    rw [this] at hb
    simp only [List.mem_cons, List.not_mem_nil, or_false] at hb
    refine ⟨.inr ⟨b, u, rfl, ?_⟩, .inr (.inr (.inr ⟨rfl, b, u, rfl, ?_⟩))⟩
    · byte_omega
    · rcases hb with rfl | rfl | rfl <;> decide

theorem word_leaf {w : Str} (h : JsonWord w) (p : Spot) (kind : NodeKind) {r : Str} (hr : JsonNext p.block r) :
    Leaf base tags p kind (w ++ r) [jsonWord kind w] r := by
  obtain ⟨a, t, rfl, ha, ht⟩ := hr
  obtain ⟨hs, hst⟩ := next_solid ht
  obtain ⟨hb1, hb2⟩ := word_bytes h
  obtain ⟨n, hsk⟩ := space_skips (comments := false) hs _ a (Nat.le_refl _) ha
  have hstop : PlainStops p.block (a ++ t) := by
    cases a with
    | nil => exact hst
    | cons x a =>
      refine .inr (.inl ?_)
      rcases ha x (by simp) with rfl | rfl | rfl | rfl
      · exact .inl ⟨_, .inl rfl⟩
      · exact .inl ⟨_, .inr rfl⟩
      · exact .inr (atBreak_iff.2 (by simp [isBreak]))
      · exact .inr (atBreak_iff.2 (by simp [isBreak]))
  have hne : w ≠ [] := by
    rcases hb2 with ⟨b, t, rfl, -⟩ | ⟨b, t, rfl, -⟩ <;> simp
  have hpw : PlainWord p.block w (a ++ t) := by
    refine ⟨hne, fun x y hxy hy => ?_, hstop⟩
    cases y with
    | nil => exact absurd rfl hy
    | cons b y => exact word_no_stop (hb1 b (by rw [hxy]; simp))
  have hbeg : PlainBegins (w ++ (a ++ t)) := by
    have h1 : (bytes! "-?:,[]{}#&*!|>'\"%@`" : Str) = [0x2D, 0x3F, 0x3A, 0x2C, 0x5B, 0x5D, 0x7B, 0x7D, 0x23, 0x26, 0x2A, 0x21, 0x7C, 0x3E, 0x27, 0x22, 0x25, 0x40, 0x60] := by decide
    have h2 : (bytes! ",[]{}" : Str) = [0x2C, 0x5B, 0x5D, 0x7B, 0x7D] := by decide
    have h3 : (bytes! "---" : Str) = [0x2D, 0x2D, 0x2D] := by decide
    have h4 : (bytes! "..." : Str) = [0x2E, 0x2E, 0x2E] := by decide
    unfold PlainBegins AtMarker
    rw [h1, h2, h3, h4]
    rcases hb2 with ⟨b, w, rfl, hb⟩ | ⟨b, w, rfl, hb⟩
    · refine ⟨?_, .inl ⟨b, _, rfl, ?_⟩⟩
      · rintro ⟨u, hu | hu, -⟩ <;>
        · simp only [List.cons_append, List.cons.injEq] at hu
          unfold JsonDigit at hb
          byte_omega
      · simp only [List.mem_cons, List.not_mem_nil, or_false]
        unfold JsonDigit at hb
        byte_omega
    · refine ⟨?_, .inr ⟨b, _, rfl, ?_⟩⟩
      · rintro ⟨u, hu | hu, -⟩ <;>
        · simp only [List.cons_append, List.cons.injEq] at hu
          unfold JsonDigit at hb
          byte_omega
      · simp only [List.mem_cons, List.not_mem_nil, or_false]
        unfold JsonDigit at hb
        byte_omega
  have := Leaf.scalar (base := base) (tags := tags) (p := p) (kind := kind) .none usable_none
    (Word.plain hbeg (.last (m := place base (w ++ (a ++ t))) hpw hsk fun h => h.2.2.2 hst))
  simpa [scalarTag, jsonWord] using this

/-! ## Values -/

theorem value_solid {kind : NodeKind} {w : Str} {es : List EventData} (h : JsonValue kind w es) (r : Str) : Solid (w ++ r) := by
  cases h with
  | word h =>
    obtain ⟨-, ⟨b, t, rfl, hb⟩ | ⟨b, t, rfl, hb⟩⟩ := word_bytes h
    · refine .inr ⟨b, t ++ r, rfl, ?_⟩
      unfold JsonDigit at hb
      byte_omega
    · exact .inr ⟨b! '-', _, rfl, by decide⟩
  | string => exact .inr ⟨b! '"', _, rfl, by decide⟩
  | emptyArray => exact .inr ⟨b! '[', _, rfl, by decide⟩
  | array => exact .inr ⟨b! '[', _, rfl, by decide⟩
  | emptyObject => exact .inr ⟨b! '{', _, rfl, by decide⟩
  | object => exact .inr ⟨b! '{', _, rfl, by decide⟩

/-- The spot in a JSON text. -/
def jsonSpot (block : Bool) : Spot := ⟨block, none, none⟩

theorem jsonSpot_ok (block : Bool) (t : Str) : (jsonSpot block).Ok base t := ⟨fun _ n h => by (cases h), fun n h => by (cases h)⟩

theorem json_next {block : Bool} {a t : Str} (ha : JsonSpace a) (h : Solid t) : NextAt base (jsonSpot block) (a ++ t) t := ⟨space_gap ha h, jsonSpot_ok _ _⟩

def JV (base : Str) (tags : List (Str × Str)) (kind : NodeKind) (w : Str) (es : List EventData) : Prop :=
  ∀ block q r, base = q ++ (w ++ r) → JsonNext block r → Inline base tags (jsonSpot block) kind (w ++ r) es r

/-- Elements, the `]`, and then `r`: the first one, and those after a `,`. -/
def JE (base : Str) (tags : List (Str × Str)) (w : Str) (es : List EventData) : Prop :=
  ∀ q r, base = q ++ (w ++ b! ']' :: r) → ∃ t v u t' es', Gap (w ++ b! ']' :: r) t ∧ FlowEntry base tags (jsonSpot false) t v u ∧
    NextAt base (jsonSpot false) u t' ∧ FlowSeq base tags (jsonSpot false) false t' es' r ∧ es ++ [.SequenceEnd] = v ++ es'

def JM (base : Str) (tags : List (Str × Str)) (w : Str) (es : List EventData) : Prop :=
  ∀ q r, base = q ++ (w ++ b! '}' :: r) → ∃ t v u t' es', Gap (w ++ b! '}' :: r) t ∧ FlowPair base tags (jsonSpot false) t v u ∧
    NextAt base (jsonSpot false) u t' ∧ FlowMap base tags (jsonSpot false) false t' es' r ∧ es ++ [.MappingEnd] = v ++ es'

/-- A member, and what comes after it. -/
def JP (base : Str) (tags : List (Str × Str)) (w : Str) (es : List EventData) : Prop :=
  ∀ q b r, base = q ++ (w ++ b :: r) → b ∈ bytes! ",]}" → ∃ t u, Gap (w ++ b :: r) t ∧ FlowPair base tags (jsonSpot false) t es u ∧
    NextAt base (jsonSpot false) u (b :: r)

theorem solid_of {b : Byte} {r : Str} (h : b ∈ bytes! ",]}:") : Solid (b :: r) := by
  have : (bytes! ",]}:" : Str) = [0x2C, 0x5D, 0x7D, 0x3A] := by decide
  rw [this] at h
  simp only [List.mem_cons, List.not_mem_nil, or_false] at h
  exact .inr ⟨b, r, rfl, by byte_omega⟩

theorem Inline.flow {p : Spot} {kind : NodeKind} {s r : Str} {es : List EventData} (h : Inline base tags p kind s es r) :
    FlowNode base tags p kind s es r := by
  cases h with
  | leaf h => exact .leaf h
  | coll h => exact .coll h

theorem json_reads {kind : NodeKind} {w : Str} {es : List EventData} (h : JsonValue kind w es) : JV base tags kind w es := by
  refine JsonValue.rec
    (motive_1 := fun kind w es _ => JV base tags kind w es)
    (motive_2 := fun w es _ => JE base tags w es)
    (motive_3 := fun w es _ => JM base tags w es)
    (motive_4 := fun w es _ => JP base tags w es)
    ?_ ?_ ?_ ?_ ?_ ?_ ?_ ?_ ?_ ?_ ?_ h
  · intro kind w h block q r hb hr
    exact .leaf (word_leaf h _ kind hr)
  · intro kind w cs h block q r hb hr
    have := string_leaf (base := base) (tags := tags) h (jsonSpot block) kind r
    refine .leaf ?_
    simpa using this
  · intro kind a ha block q r hb hr
    refine .coll ?_
    have := FlowColl.seq (base := base) (tags := tags) (p := jsonSpot block) (kind := kind) .none usable_none
      (json_next (block := false) ha (solid_of (b := b! ']') (r := r) (by decide))) .close
    simpa using this
  · intro kind w es _ ih block q r hb hr
    obtain ⟨t, v, u, t', es', h1, h2, h3, h4, h5⟩ := ih (q ++ [b! '[']) r (by rw [hb]; simp)
    refine .coll ?_
    have := FlowColl.seq (base := base) (tags := tags) (p := jsonSpot block) (kind := kind) .none usable_none (u := w ++ b! ']' :: r) (t := t)
      ⟨h1, jsonSpot_ok _ _⟩ (.first h2 h3 h4)
    rw [h5]
    simpa using this
  · intro kind a ha block q r hb hr
    refine .coll ?_
    have := FlowColl.map (base := base) (tags := tags) (p := jsonSpot block) (kind := kind) .none usable_none
      (json_next (block := false) ha (solid_of (b := b! '}') (r := r) (by decide))) .close
    simpa using this
  · intro kind w es _ ih block q r hb hr
    obtain ⟨t, v, u, t', es', h1, h2, h3, h4, h5⟩ := ih (q ++ [b! '{']) r (by rw [hb]; simp)
    refine .coll ?_
    have := FlowColl.map (base := base) (tags := tags) (p := jsonSpot block) (kind := kind) .none usable_none (u := w ++ b! '}' :: r) (t := t)
      ⟨h1, jsonSpot_ok _ _⟩ (.first h2 h3 h4)
    rw [h5]
    simpa using this
  · intro a w b es ha hv hb ih q r hbase
    refine ⟨w ++ (b ++ b! ']' :: r), es, b ++ b! ']' :: r, b! ']' :: r, [.SequenceEnd], ?_, .node (Inline.flow (ih false (q ++ a) _ ?_ ?_)), ?_, .close, rfl⟩
    · have := space_gap ha (value_solid hv (b ++ b! ']' :: r))
      simpa using this
    · rw [hbase]; simp
    · exact ⟨b, _, rfl, hb, _, _, rfl, by decide⟩
    · exact json_next hb (solid_of (by decide))
  · intro a w b w' es es' ha hv hb _ ih ih' q r hbase
    obtain ⟨t, v, u, t', es'', h1, h2, h3, h4, h5⟩ := ih' (q ++ (a ++ (w ++ (b ++ [b! ','])))) r (by rw [hbase]; simp)
    refine ⟨w ++ (b ++ b! ',' :: (w' ++ b! ']' :: r)), es, b ++ b! ',' :: (w' ++ b! ']' :: r), b! ',' :: (w' ++ b! ']' :: r), v ++ es'',
      ?_, .node (Inline.flow (ih false (q ++ a) _ ?_ ?_)), ?_, .next ⟨h1, jsonSpot_ok _ _⟩ h2 h3 h4, ?_⟩
    · have := space_gap ha (value_solid hv (b ++ b! ',' :: (w' ++ b! ']' :: r)))
      simpa using this
    · rw [hbase]; simp
    · exact ⟨b, _, rfl, hb, _, _, rfl, by decide⟩
    · exact json_next hb (solid_of (by decide))
    · rw [List.append_assoc, h5]
  · intro w es _ ih q r hbase
    obtain ⟨t, u, h1, h2, h3⟩ := ih q (b! '}') r hbase (by decide)
    exact ⟨t, es, u, _, [.MappingEnd], h1, h2, h3, .close, rfl⟩
  · intro w w' es es' _ _ ih ih' q r hbase
    obtain ⟨t, v, u, t', es'', h1, h2, h3, h4, h5⟩ := ih' (q ++ (w ++ [b! ','])) r (by rw [hbase]; simp)
    obtain ⟨t1, u1, g1, g2, g3⟩ := ih q (b! ',') (w' ++ b! '}' :: r) (by rw [hbase]; simp) (by decide)
    refine ⟨t1, es, u1, _, v ++ es'', by simpa using g1, g2, g3, .next ⟨h1, jsonSpot_ok _ _⟩ h2 h3 h4, ?_⟩
    rw [List.append_assoc, h5]
  · intro a k b c w d cs es ha hk hb hlen hc hv hd ih q x r hbase hx
    refine ⟨b! '"' :: (k ++ b! '"' :: (b ++ b! ':' :: (c ++ (w ++ (d ++ x :: r))))), d ++ x :: r, ?_, ?_, json_next hd (solid_of ?_)⟩
    · have := space_gap ha (t := b! '"' :: (k ++ b! '"' :: (b ++ b! ':' :: (c ++ (w ++ (d ++ x :: r)))))) (.inr ⟨_, _, rfl, by decide⟩)
      simpa using this
    · refine .pair (FlowKeyed.implicit (v := [jsonString .Key cs]) (v' := es) (string_leaf hk _ _ _) (json_next (blank_space hb) (solid_of (by decide))) ?_ (.node (json_next hc (value_solid hv _)) (Inline.flow (ih false (q ++ (a ++ (b! '"' :: (k ++ b! '"' :: (b ++ b! ':' :: c))))) _ ?_ ?_))))
      · have := same_line (base := base) (q := q ++ a) (w := b! '"' :: (k ++ b! '"' :: b)) (k := b! ':' :: (c ++ (w ++ (d ++ x :: r)))) (by rw [hbase]; simp) ?_
        · have e : (b! '"' :: (k ++ b! '"' :: b)) ++ b! ':' :: (c ++ (w ++ (d ++ x :: r))) = b! '"' :: (k ++ b! '"' :: (b ++ b! ':' :: (c ++ (w ++ (d ++ x :: r))))) := by simp
          rw [e] at this
          refine ⟨this.1, ?_⟩
          rw [this.2]
          simp only [List.length_cons, List.length_append]
          omega
        · intro y hy
          simp only [List.mem_cons, List.mem_append] at hy
          rcases hy with rfl | hy | rfl | hy
          · decide
          · exact string_bytes hk y hy
          · decide
          · rcases hb y hy with rfl | rfl <;> decide
      · rw [hbase]; simp
      · refine ⟨d, _, rfl, hd, x, r, rfl, hx⟩
    · have e1 : (bytes! ",]}" : Str) = [0x2C, 0x5D, 0x7D] := by decide
      have e2 : (bytes! ",]}:" : Str) = [0x2C, 0x5D, 0x7D, 0x3A] := by decide
      rw [e1] at hx
      rw [e2]
      simp only [List.mem_cons, List.not_mem_nil, or_false] at hx ⊢
      byte_omega

theorem json_text {text : Str} {es : List EventData} (h : JsonText text es) :
    TextStream text (.StreamStart .UTF8 :: .DocumentStart { version := { major := 1, minor := 2 }, tags := knownTags } true ::
      (es ++ [.DocumentEnd true, .StreamEnd])) := by
  cases h with
  | @mk a w b es ha h hb =>
    have h1 := json_reads (base := a ++ (w ++ b)) (tags := knownTags) h true a b rfl ⟨b, [], by simp, hb, rfl⟩
    have hne : w ++ b ≠ [] := by
      rcases value_solid h b with h' | ⟨x, u, h', -⟩
      · exfalso
        cases h with
        | word h =>
          obtain ⟨-, ⟨b, t, rfl, hb⟩ | ⟨b, t, rfl, hb⟩⟩ := word_bytes h <;> cases h'
        | _ => cases h'
      · rw [h']; simp
    refine .docs (space_gap ha (value_solid h b)) hne ?_
    have h2 : LineEnds b [] := .inr ⟨rfl, by simpa using space_gap hb (t := []) (.inl rfl)⟩
    exact .bare (jsonSpot_ok true _) (.inline h1 h2) .implicit .done

/-! ## JSON texts are ASCII -/

theorem space_ascii {a : Str} (h : JsonSpace a) : Ascii a := fun b hb => by
  rcases h b hb with rfl | rfl | rfl | rfl <;> decide

theorem word_ascii {w : Str} (h : JsonWord w) : Ascii w := fun b hb => by
  have := (word_bytes h).1 b hb
  unfold WordByte JsonDigit at this
  byte_omega

theorem json_ascii {kind : NodeKind} {w : Str} {es : List EventData} (h : JsonValue kind w es) : Ascii w := by
  have sides : ∀ (x y : Byte) (w : Str), x < 128 → y < 128 → Ascii w → Ascii (x :: (w ++ [y])) := fun x y w hx hy hw =>
    Ascii.cons hx (hw.append (Ascii.cons hy .nil))
  refine JsonValue.rec (motive_1 := fun _ w _ _ => Ascii w) (motive_2 := fun w _ _ => Ascii w) (motive_3 := fun w _ _ => Ascii w)
    (motive_4 := fun w _ _ => Ascii w) ?_ ?_ ?_ ?_ ?_ ?_ ?_ ?_ ?_ ?_ ?_ h
  · intro _ w h
    exact word_ascii h
  · intro _ w cs h
    exact sides _ _ _ (by decide) (by decide) fun b hb => (string_bytes h b hb).1
  · intro _ a ha
    exact sides _ _ _ (by decide) (by decide) (space_ascii ha)
  · intro _ w es _ ih
    exact sides _ _ _ (by decide) (by decide) ih
  · intro _ a ha
    exact sides _ _ _ (by decide) (by decide) (space_ascii ha)
  · intro _ w es _ ih
    exact sides _ _ _ (by decide) (by decide) ih
  · intro a w b es ha _ hb ih
    exact (space_ascii ha).append (ih.append (space_ascii hb))
  · intro a w b w' es es' ha _ hb _ ih ih'
    exact (space_ascii ha).append (ih.append ((space_ascii hb).append (.cons (by decide) ih')))
  · intro w es _ ih
    exact ih
  · intro w w' es es' _ _ ih ih'
    exact ih.append (.cons (by decide) ih')
  · intro a k b c w d cs es ha hk hb _ hc _ hd ih
    refine (space_ascii ha).append (.cons (by decide) (Ascii.append (fun b hb => (string_bytes hk b hb).1) (.cons (by decide) ?_)))
    exact (space_ascii (blank_space hb)).append (.cons (by decide) ((space_ascii hc).append (ih.append (space_ascii hd))))

theorem text_ascii {text : Str} {es : List EventData} (h : JsonText text es) : Ascii text := by
  cases h with
  | mk ha h hb => exact (space_ascii ha).append ((json_ascii h).append (space_ascii hb))

end Yary.Reading
