import Verif.Model.Flag
import Verif.Model.Scalar
import Verif.Model.Error

/-! # C31, C32, C33: lazy scalars in place, error categories, flags -/

namespace Yary

/-! ### C31 -/

/-- **C31.** Evaluating in place, whatever the deferred scan does: afterwards the scalar is
evaluated; a second evaluation succeeds and changes nothing; on success it holds the returned
value, which is what evaluating by value gives; on failure it is the empty scalar. -/
theorem C31_evaluate_in_place (eval : Lazy → Out ScanError Scalar) (s : ScalarLike) :
    let r := s.evaluateByRef eval
    r.1 = s.evaluate eval ∧
    r.2.isEvaluated = true ∧
    (∀ v, r.1 = .ok v → r.2 = .Eager v) ∧
    ((∀ v, r.1 ≠ .ok v) → r.2 = .empty) ∧
    (∃ v, r.2.evaluateByRef eval = (.ok v, r.2) ∧ ∀ w, r.1 = .ok w → v = w) := by
  cases s with
  | Eager v => simp [ScalarLike.evaluateByRef, ScalarLike.evaluate, ScalarLike.isEvaluated]
  | Lazy l =>
    cases h : eval l <;>
      simp [ScalarLike.evaluateByRef, ScalarLike.evaluate, ScalarLike.isEvaluated, h,
        ScalarLike.empty]

/-- **C31**, evaluated scalars: evaluation is the identity and does not run the deferred scan. -/
theorem C31_evaluated_identity (eval : Lazy → Out ScanError Scalar) (s : ScalarLike)
    (h : s.isEvaluated = true) :
    ∃ v, s = .Eager v ∧ s.evaluate eval = .ok v ∧ s.evaluateByRef eval = (.ok v, s) := by
  cases s with
  | Eager v => exact ⟨v, rfl, rfl, rfl⟩
  | Lazy l => simp [ScalarLike.isEvaluated] at h

/-- A failing deferred scan: the scalar is emptied. -/
example : (ScalarLike.Lazy (.flow {} (bytes! "\"\\q\"") {} false)).evaluateByRef
    (fun _ => .err .UnknownEscape) = (.err .UnknownEscape, .Eager ⟨[], .Plain⟩) := rfl

/-! ### C32 -/

/-- The documented classification (`/repo/src/error.rs:50-58,85-103`) in terms of causes. -/
inductive Documented.Cat : ParseError → Category → Prop where
  | io (e : IoError) : Cat (.IO e) .IO
  | utf8 (e : Utf8Error) : Cat (.UTF8 e) .Data
  | overflow : Cat (.Scanner .IntOverflow) .Data
  | corrupt : Cat .CorruptStream .Data
  | eof : Cat .UnexpectedEOF .EOF
  | scanEof : Cat (.Scanner .UnexpectedEOF) .EOF
  | extend : Cat (.Scanner .Extend) .EOF
  | scan {e : ScanError} (h : e ≠ .IntOverflow) (h' : e ≠ .UnexpectedEOF) (h'' : e ≠ .Extend) :
      Cat (.Scanner e) .Syntax
  | parse {e : ParseError} (h : e ∈ [ParseError.DuplicateVersion, .DuplicateTagDirective,
      .UndefinedTag, .MissingDocumentStart, .MissingBlockEntry, .MissingNode, .MissingKey,
      .MissingFlowSequenceEntryOrEnd, .MissingFlowMappingEntryOrEnd]) : Cat e .Syntax

/-- **C32**, classification: every error of the event API is classified as documented, and only
so. -/
theorem C32_classification (e : ParseError) (c : Category) :
    Category.ofKind (.ofParse e) = c ↔ Documented.Cat e c := by
  constructor
  · rintro rfl
    cases e with
    | Scanner s =>
      cases s <;> first
        | exact .scan (by decide) (by decide) (by decide)
        | exact .overflow | exact .scanEof | exact .extend
    | UTF8 e => exact .utf8 e
    | IO e => exact .io e
    | CorruptStream => exact .corrupt
    | UnexpectedEOF => exact .eof
    | _ => exact .parse (by simp)
  · intro h
    cases h with
    | @scan s h h' h'' => cases s <;> first | rfl | contradiction
    | parse h =>
      simp only [List.mem_cons, List.not_mem_nil, or_false] at h
      rcases h with h | h | h | h | h | h | h | h | h <;> subst h <;> rfl
    | _ => rfl

/-- **C32**, through the reader: an error of the token source keeps its category on the way
through the parser. -/
theorem C32_reader_category (e : ReaderError) :
    Category.ofKind (.ofParse (.ofReader e)) = Category.ofKind (.ofReader e) := by
  cases e <;> rfl

/-- **C32**, conversion to `std::io::Error`: it never panics, gives back an underlying I/O error
unchanged, and otherwise makes an error of the kind belonging to the category that still carries
the original. -/
theorem C32_io_conversion (k : ErrorKind) :
    (∀ e, k = .Source (.IO e) → IoResult.ofKind k = .ok (.original e)) ∧
    ((∀ e, k ≠ .Source (.IO e)) → ∃ kind, IoResult.ofKind k = .ok (.wrapped kind k) ∧
      (kind = .InvalidInput ↔ Category.ofKind k = .Syntax) ∧
      (kind = .InvalidData ↔ Category.ofKind k = .Data) ∧
      (kind = .UnexpectedEof ↔ Category.ofKind k = .EOF)) := by
  constructor
  · rintro e rfl; rfl
  · intro h
    cases k with
    | Source s =>
      cases s with
      | IO e => exact absurd rfl (h e)
      | UTF8 e => cases e; exact ⟨.InvalidData, rfl, by decide, by decide, by decide⟩
    | Code c => cases c <;> exact ⟨_, rfl, by decide, by decide, by decide⟩

/-- An I/O error and an overflow. -/
example : IoResult.ofKind (.ofParse (.IO ⟨7, .Other 3⟩)) = .ok (.original ⟨7, .Other 3⟩) ∧
    IoResult.ofKind (.ofParse (.Scanner .IntOverflow)) =
      .ok (.wrapped .InvalidData (.Code .IntOverflow)) := ⟨rfl, rfl⟩

/-! ### C33 -/

/-- Flag number `i` is in the set. -/
def Flags.Has (f : Flags) (i : Nat) : Prop := f.getLsbD i = true

/-- The number of the lazy flag. -/
def Flags.lazyBit : Nat := 0

theorem Flags.has_lazyFlag (i : Nat) : Flags.lazyFlag.getLsbD i = true ↔ i = Flags.lazyBit := by
  simp only [Flags.lazyFlag, Flags.lazyBit, BitVec.getLsbD_one]
  simp

/-- **C33.** Flag sets behave like sets: union, difference and containment are those of sets of
flags, `lazy` adds exactly the lazy flag, `no_lazy` removes exactly it, `nil` and `new` are
empty, and the scanner is told about the lazy flag and nothing else. -/
theorem C33_flags_are_sets (f g : Flags) :
    (∀ i, (f.union g).Has i ↔ f.Has i ∨ g.Has i) ∧
    (∀ i, (f.difference g).Has i ↔ f.Has i ∧ ¬ g.Has i) ∧
    (f.contains g = true ↔ ∀ i, g.Has i → f.Has i) ∧
    (∀ i, f.lazy.Has i ↔ i = Flags.lazyBit ∨ f.Has i) ∧
    (∀ i, f.noLazy.Has i ↔ i ≠ Flags.lazyBit ∧ f.Has i) ∧
    (∀ i, ¬ f.nil.Has i ∧ ¬ Flags.new.Has i) ∧
    (f = g ↔ ∀ i, f.Has i ↔ g.Has i) ∧
    (f.asScanner.lazy = true ↔ f.Has Flags.lazyBit) ∧ f.asScanner.extendable = false := by
  have hdiff : ∀ (f g : Flags) i, (f.difference g).Has i ↔ f.Has i ∧ ¬ g.Has i := by
    intro f g i
    simp only [Flags.difference, Flags.Has, BitVec.getLsbD_and, BitVec.getLsbD_not,
      Bool.and_eq_true, decide_eq_true_eq, Bool.not_eq_true']
    constructor
    · rintro ⟨h1, h2, h3⟩; exact ⟨h1, by simp [h3]⟩
    · rintro ⟨h1, h2⟩
      refine ⟨h1, ?_, by simpa using h2⟩
      exact BitVec.lt_of_getLsbD h1
  have hcont : ∀ f g : Flags, f.contains g = true ↔ ∀ i, g.Has i → f.Has i := by
    intro f g
    simp only [Flags.contains, beq_iff_eq, Flags.Has]
    constructor
    · intro h i hg
      rw [← h, BitVec.getLsbD_and, Bool.and_eq_true] at hg
      exact hg.1
    · intro h
      apply BitVec.eq_of_getLsbD_eq
      intro i _
      rw [BitVec.getLsbD_and]
      cases hg : g.getLsbD i with
      | false => simp
      | true => simp [h i hg]
  refine ⟨?_, hdiff f g, hcont f g, ?_, ?_, ?_, ?_, ?_, ?_⟩
  · intro i
    simp [Flags.union, Flags.Has]
  · intro i
    simp only [Flags.lazy, Flags.union, Flags.Has, BitVec.getLsbD_or, Bool.or_eq_true,
      Flags.has_lazyFlag]
    exact Or.comm
  · intro i
    rw [Flags.noLazy, hdiff]
    rw [show Flags.Has Flags.lazyFlag i ↔ i = Flags.lazyBit from Flags.has_lazyFlag i]
    exact And.comm
  · intro i
    simp [Flags.nil, Flags.new, Flags.nilFlags, Flags.Has]
  · constructor
    · rintro rfl i; rfl
    · intro h
      apply BitVec.eq_of_getLsbD_eq
      intro i _
      have := h i
      simp only [Flags.Has] at this
      cases hf : f.getLsbD i <;> cases hg : g.getLsbD i <;> simp_all
  · have : f.contains Flags.lazyFlag = true ↔ f.Has Flags.lazyBit := by
      rw [hcont]
      constructor
      · intro h; exact h _ ((Flags.has_lazyFlag _).mpr rfl)
      · intro h i hi
        rw [show Flags.Has Flags.lazyFlag i ↔ i = Flags.lazyBit from Flags.has_lazyFlag i] at hi
        rw [hi]; exact h
    rw [← this]
    unfold Flags.asScanner
    by_cases hc : f.contains Flags.lazyFlag = true <;> simp [hc]
  · unfold Flags.asScanner
    by_cases hc : f.contains Flags.lazyFlag = true <;> simp [hc]

/-- The documentation's example: `O_NIL | O_LAZY == Flags::new().no_lazy().nil().lazy()`. -/
example : Flags.nilFlags.union Flags.lazyFlag = Flags.new.noLazy.nil.lazy ∧
    Flags.new.lazy.asScanner = { extendable := false, lazy := true } := ⟨rfl, rfl⟩

end Yary
