import Verif.Props.Events
import Verif.Props.Misc
import Verif.Props.Content
import Verif.Model.PublicError

/-! # What errors tell: C64 to C66 and C68, how they are returned (C32), and the scalars that evaluation gives (C31) -/

namespace Yary

open Spec

variable {σ : Type} {drive : Drive σ} {opts : SFlags} {text : List Char}

/-! ### C31 -/

/-- The style of a deferred scalar. -/
def deferredStyle : Lazy → ScalarStyle
  | .flow _ _ _ single => if single then .SingleQuote else .DoubleQuote
  | .plain _ _ _ _ _ => .Plain
  | .block _ _ _ _ fold => if fold then .Folded else .Literal

/-- **C31**: a deferred scalar evaluates to nothing but a scalar, of its own style. -/
theorem C31_scalar {l : Lazy} {t : Token} (h : l.intoToken = .ok t) : ∃ v, t = .Scalar v (deferredStyle l) := by
  cases l with
  | flow o s st single =>
    obtain ⟨⟨t', c'⟩, h1, h⟩ := Out.bind_eq_ok.1 h
    simp only [Out.ok.injEq] at h
    subst h
    unfold scanFlowEager at h1
    obtain ⟨_, _, h1⟩ := Out.bind_eq_ok.1 h1
    obtain ⟨_, _, h1⟩ := Out.bind_eq_ok.1 h1
    obtain ⟨_, _, h1⟩ := Out.bind_eq_ok.1 h1
    obtain ⟨v, _, h1⟩ := Out.bind_eq_ok.1 h1
    obtain ⟨_, _, h1⟩ := Out.bind_eq_ok.1 h1
    obtain ⟨_, _, h1⟩ := Out.bind_eq_ok.1 h1
    simp only [Out.ok.injEq, Prod.mk.injEq] at h1
    exact ⟨v, by rw [← h1.1]; rfl⟩
  | plain o s st i b =>
    obtain ⟨⟨t', c'⟩, h1, h⟩ := Out.bind_eq_ok.1 h
    simp only [Out.ok.injEq] at h
    subst h
    unfold scanPlainEager at h1
    obtain ⟨_, _, h1⟩ := Out.bind_eq_ok.1 h1
    split at h1
    · cases h1
    · obtain ⟨_, _, h1⟩ := Out.bind_eq_ok.1 h1
      obtain ⟨_, _, h1⟩ := Out.bind_eq_ok.1 h1
      obtain ⟨v, _, h1⟩ := Out.bind_eq_ok.1 h1
      obtain ⟨_, _, h1⟩ := Out.bind_eq_ok.1 h1
      simp only [Out.ok.injEq, Prod.mk.injEq] at h1
      exact ⟨v, h1.1.symm⟩
  | block o s st i f =>
    obtain ⟨⟨t', c'⟩, h1, h⟩ := Out.bind_eq_ok.1 h
    simp only [Out.ok.injEq] at h
    subst h
    unfold scanBlockEager at h1
    obtain ⟨⟨_, _, _⟩, _, h1⟩ := Out.bind_eq_ok.1 h1
    obtain ⟨_, _, h1⟩ := Out.bind_eq_ok.1 h1
    obtain ⟨_, _, h1⟩ := Out.bind_eq_ok.1 h1
    obtain ⟨_, _, h1⟩ := Out.bind_eq_ok.1 h1
    obtain ⟨v, _, h1⟩ := Out.bind_eq_ok.1 h1
    simp only [Out.ok.injEq, Prod.mk.injEq] at h1
    exact ⟨v, by rw [← h1.1]; rfl⟩

/-- **C31**: what evaluating a scalar gives is that scalar, with this style. -/
theorem C31_style {l : Lazy} {s : Scalar} (h : l.evaluateScalar = .ok s) : s.style = deferredStyle l ∧ l.intoToken = .ok (.Scalar s.data s.style) := by
  unfold Lazy.evaluateScalar at h
  cases h1 : l.intoToken with
  | ok t =>
    obtain ⟨v, rfl⟩ := C31_scalar h1
    rw [h1] at h
    cases h
    exact ⟨rfl, rfl⟩
  | _ => rw [h1] at h; cases h

/-- **C31**: so evaluating a scalar panics only where the scan that was deferred does. -/
theorem C31_reachable (l : Lazy) : l.evaluateScalar = .panic ↔ l.intoToken = .panic := by
  unfold Lazy.evaluateScalar
  cases h : l.intoToken with
  | ok t => obtain ⟨v, rfl⟩ := C31_scalar h; simp
  | _ => simp

example : (Lazy.flow {} (bytes! "'a''b'") {} true).evaluateScalar = .ok ⟨bytes! "a'b", .SingleQuote⟩ ∧
    (Lazy.block {} (bytes! ">\n a\n b\n") {} 0 true).evaluateScalar = .ok ⟨bytes! "a b\n", .Folded⟩ := by decide +kernel

/-! ### C64 -/

/-- The error does not tell where it occurred, and says so. -/
def Nowhere (e : PublicError) : Prop := e.hasContext = false ∧ e.line = 0 ∧ e.column = 0 ∧ e.at_ = 0

/-- **C64** is false of all errors that iterating returns, on any source, after any calls. -/
theorem C64_false_events {fuel n : Nat} {s : Events σ} {e : PublicError} (h : .err e ∈ (nexts drive fuel n s).1) : Nowhere e := by
  induction n generalizing s with
  | zero => cases h
  | succ n ih =>
    simp only [nexts, List.mem_cons] at h
    rcases h with h | h
    · simp only [Events.next] at h
      cases h1 : (Parser.nextEvent drive fuel s).1 with
      | err e' =>
        rw [h1] at h
        simp only [Out.mapErr, Out.err.injEq] at h
        subst h
        exact ⟨rfl, rfl, rfl, rfl⟩
      | _ => rw [h1] at h; cases h
    · exact ih h

/-- **C64** is false of all errors of evaluation. -/
theorem C64_false_scalars {s : ScalarLike} {e : PublicError} (h : s.value = .err e) : Nowhere e := by
  unfold ScalarLike.value at h
  cases h1 : s.evaluate Lazy.evaluateScalar with
  | err e' =>
    rw [h1] at h
    simp only [Out.mapErr, Out.err.injEq] at h
    subst h
    exact ⟨rfl, rfl, rfl, rfl⟩
  | _ => rw [h1] at h; cases h

/-- **C64** is false of the errors of bytes that are not UTF-8. -/
theorem C64_false_bytes {bytes : Str} {e : PublicError} (h : tryFromBytes bytes = .err e) : Nowhere e := by
  unfold tryFromBytes at h
  split at h
  · cases h
  · simp only [Out.err.injEq] at h
    subst h
    exact ⟨rfl, rfl, rfl, rfl⟩

/-- There are such errors, of each kind; the first one is in the second line. -/
example : .err (.new (.Code .UnknownDelimiter)) ∈ (nexts (borrowDrive {} (utf8 "- a\n- @\n".toList)) 40 9 (start {})).1 ∧
    (ScalarLike.Lazy (.flow {} (bytes! "\"\\q\"") {} false)).value = .err (.new (.Code .UnknownEscape)) ∧
    tryFromBytes [0xC3] = .err (.new (.Source (.UTF8 {}))) := by decide +kernel

/-- **C65**: an error with a place, that is with a line, lines being counted from 1, shows all of it; one without shows none. -/
theorem C65_place (io : IoError → String) (utf8 : Utf8Error → String) (k : ErrorKind) (i l c : Nat) :
    ((PublicError.withContext k i l c).hasContext = true ↔ 1 ≤ l) ∧
    (1 ≤ l → (PublicError.withContext k i l c).message io utf8 =
      k.message io utf8 ++ ", on line " ++ toString l ++ ", column " ++ toString c ++ ", at index " ++ toString i) ∧
    (l = 0 → (PublicError.withContext k i l c).message io utf8 = k.message io utf8) := by
  have h : (PublicError.withContext k i l c).hasContext = true ↔ 1 ≤ l := by
    simp only [PublicError.hasContext, PublicError.withContext, bne_iff_ne, ne_eq]
    omega
  refine ⟨h, fun hl => ?_, fun hl => ?_⟩
  · simp only [PublicError.message, h.2 hl, if_true]
    rfl
  · rw [PublicError.message, if_neg fun hc => by have := h.1 hc; omega]
    rfl

/-- An error could tell: the type has the means. -/
example : (PublicError.withContext (.Code .InvalidTab) 5 2 1).hasContext = true ∧
    (PublicError.withContext (.Code .InvalidTab) 5 2 1).message (fun _ => "") (fun _ => "") =
      "indentation contained a tab character, on line 2, column 1, at index 5" := by decide +kernel

/-! ### C65 -/

/-- **C65**: no two of the errors that the library itself finds read the same. -/
theorem C65_codes (c d : ErrorCode) : c.message = d.message ↔ c = d := by
  constructor
  · cases c <;> cases d <;> first | exact fun _ => rfl | exact fun h => absurd h (by decide)
  · rintro rfl; rfl

/-- **C65**: so what is shown of two errors that iterating returns tells whether they are the same, unless it is shown by a source. -/
theorem C65_messages {io : IoError → String} {utf8 : Utf8Error → String} {fuel n n' : Nat} {s s' : Events σ} {e e' : PublicError} {c c' : ErrorCode}
    (h : .err e ∈ (nexts drive fuel n s).1) (h' : .err e' ∈ (nexts drive fuel n' s').1) (hc : e.kind = .Code c) (hc' : e'.kind = .Code c') :
    e.message io utf8 = e'.message io utf8 ↔ e = e' := by
  obtain ⟨h1, h2, h3, h4⟩ := C64_false_events h
  obtain ⟨h1', h2', h3', h4'⟩ := C64_false_events h'
  rw [PublicError.message, PublicError.message, h1, h1', hc, hc']
  simp only [Bool.false_eq_true, if_false, ErrorKind.message, C65_codes]
  cases e
  cases e'
  simp_all

example : (nexts (borrowDrive {} (Spec.utf8 "- [a\n".toList)) 40 6 (start {})).1.filterMap (fun o => match o with
    | .err e => some (e.message (fun _ => "") (fun _ => ""))
    | _ => none) = ["missing flow sequence delimiter ',' or ']'"] := by decide +kernel

/-- What a user is to read of an error of the scanner, or of the parser. -/
def readsAs : List (ParseError × String) :=
  [(.Scanner .UnknownDirective, "unknown YAML directive"),
   (.Scanner .MissingMajor, "%YAML directive missing major version"),
   (.Scanner .MissingMinor, "%YAML directive missing minor version"),
   (.Scanner .MissingValue, "missing YAML mapping value"),
   (.Scanner .InvalidVersion, "%YAML directive is invalid"),
   (.Scanner .InvalidTagHandle, "node tag handle is not one of !, !!, or ![a-zA-Z0-9]+!"),
   (.Scanner .InvalidTagPrefix, "%TAG directive prefix is invalid"),
   (.Scanner .InvalidTagSuffix, "node tag suffix is invalid"),
   (.Scanner .InvalidAnchorName, "node anchor or alias contains invalid characters"),
   (.Scanner .InvalidFlowScalar, "flow scalar contains invalid characters"),
   (.Scanner .InvalidPlainScalar, "plain scalar contains invalid characters"),
   (.Scanner .InvalidBlockScalar, "block scalar contains invalid characters"),
   (.Scanner .InvalidBlockEntry, "block entry is not allowed in this context"),
   (.Scanner .InvalidTab, "indentation contained a tab character"),
   (.Scanner .InvalidKey, "key node is not allowed in this context"),
   (.Scanner .InvalidValue, "value node is not allowed in this context"),
   (.Scanner .UnknownEscape, "unknown escape sequence"),
   (.Scanner .UnknownDelimiter, "unknown token"),
   (.Scanner .UnexpectedEOF, "unexpected EOF"),
   (.Scanner .Extend, "unexpected EOF"),
   (.Scanner .IntOverflow, "integer overflow while parsing"),
   (.CorruptStream, "invalid or corrupt yaml stream"),
   (.DuplicateVersion, "duplicate %YAML directive found in a document"),
   (.DuplicateTagDirective, "duplicate %TAG directive for a handle found in a document"),
   (.UndefinedTag, "undefined node tag found"),
   (.MissingDocumentStart, "missing document start or end indicator"),
   (.MissingBlockEntry, "block entry was expected"),
   (.MissingNode, "node was expected"),
   (.MissingKey, "key node was expected"),
   (.MissingFlowSequenceEntryOrEnd, "missing flow sequence delimiter ',' or ']'"),
   (.MissingFlowMappingEntryOrEnd, "missing flow mapping delimiter ',' or '}'"),
   (.UnexpectedEOF, "unexpected EOF")]

/-- **C65**: every error that a call finds itself is shown as what it is. -/
theorem C65_shown {io : IoError → String} {utf8 : Utf8Error → String} {fuel : Nat} {s : Events σ} {pe : ParseError}
    (h : (Parser.nextEvent drive fuel s).1 = .err pe) (hio : ∀ e, pe ≠ .IO e) (hutf : ∀ e, pe ≠ .UTF8 e) :
    ∃ e, (Events.next drive fuel s).1 = .err e ∧ (pe, e.message io utf8) ∈ readsAs := by
  refine ⟨.ofParse pe, by rw [Events.next, h]; rfl, ?_⟩
  cases pe with
  | IO e => exact absurd rfl (hio e)
  | UTF8 e => exact absurd rfl (hutf e)
  | Scanner e =>
    cases e <;> simp [readsAs, PublicError.message, PublicError.hasContext, PublicError.ofParse, PublicError.new, PublicError.withContext, ErrorKind.ofParse,
      ErrorKind.message, ErrorCode.message, ErrorCode.ofScan]
  | _ => simp [readsAs, PublicError.message, PublicError.hasContext, PublicError.ofParse, PublicError.new, PublicError.withContext, ErrorKind.ofParse,
      ErrorKind.message, ErrorCode.message]

/-- Only the three errors of a text that ends too early read alike. -/
example : ∀ a ∈ readsAs, ∀ b ∈ readsAs, a.2 = b.2 → a = b ∨ a.2 = "unexpected EOF" := by decide +kernel

/-! ### C66 -/

/-- **C66** is false of each error that is caused by a source or by bytes: none leads to its cause. -/
theorem C66_false_all (e : PublicError) : e.cause = none := rfl

/-- **C66** is false: there are such errors. -/
theorem C66_false : ∃ (bytes : Str) (e : PublicError) (e' : Utf8Error), tryFromBytes bytes = .err e ∧ e.kind = .Source (.UTF8 e') ∧ e.cause = none :=
  ⟨[0xC3], _, {}, rfl, rfl, rfl⟩

/-- **C66**, partly: a failure to read gives back the error of the source when it is converted to one, and only then. -/
theorem C66_partial (e : PublicError) (e' : IoError) : IoResult.ofKind e.kind = .ok (.original e') ↔ e.kind = .Source (.IO e') := by
  constructor
  · intro h
    unfold IoResult.ofKind at h
    split at h
    · next h1 => cases h; exact h1
    · split at h <;> cases h
  · intro h
    rw [h]
    rfl

/-! ### C32 -/

/-- **C32**, as iterating returns errors: events and the end are those of the parser, its errors are converted, and the stream goes on from
where the parser is, also after an error. -/
theorem C32_next (fuel : Nat) (s : Events σ) :
    (∀ r, (Events.next drive fuel s).1 = .ok r ↔ (Parser.nextEvent drive fuel s).1 = .ok r) ∧
    (∀ e, (Events.next drive fuel s).1 = .err e → ∃ pe, (Parser.nextEvent drive fuel s).1 = .err pe ∧ e.kind = .ofParse pe ∧
      Documented.Cat pe e.classify) ∧
    (∀ pe, (Parser.nextEvent drive fuel s).1 = .err pe → ∃ e, (Events.next drive fuel s).1 = .err e) ∧
    ((Events.next drive fuel s).1 = .panic ↔ (Parser.nextEvent drive fuel s).1 = .panic) ∧
    (Events.next drive fuel s).2 = (Parser.nextEvent drive fuel s).2 := by
  unfold Events.next
  generalize Parser.nextEvent drive fuel s = r
  obtain ⟨o, s'⟩ := r
  cases o with
  | err pe =>
    refine ⟨fun r => by simp [Out.mapErr], fun e h => ?_, fun pe' _ => ⟨_, rfl⟩, by simp [Out.mapErr], rfl⟩
    simp only [Out.mapErr, Out.err.injEq] at h
    subst h
    exact ⟨pe, rfl, rfl, (C32_classification pe _).1 rfl⟩
  | _ => simp [Out.mapErr]

/-- An error, and after it the rest of the stream. -/
example : (nexts listDrive 20 5 (start [⟨.Token (.StreamStart .UTF8), 0⟩, ⟨.Token (.Tag (bytes! "!x!") (bytes! "y")), 1⟩,
      ⟨.Token .StreamEnd, 2⟩])).1.map (fun o => match o with
    | .ok (some e) => (some (decide (e.data = .StreamEnd)), none)
    | .err e => (none, some e.classify)
    | _ => (none, none)) =
    [(some false, none), (some false, none), (none, some .Syntax), (some false, none), (some true, none)] := by decide +kernel

/-! ### C68 -/

/-- What the results are, without their contents. -/
def outline (os : List (Out PublicError (Option Event))) : List (Option (Str ⊕ ErrorKind)) :=
  os.map fun o => match o with
    | .ok (some ⟨_, _, .Scalar _ (.Eager s)⟩) => some (.inl s.data)
    | .err e => some (.inr e.kind)
    | _ => none

/-- **C68** is false: an error comes before the scalar that is before it in the text; -/
theorem C68_false_order : outline (nexts (borrowDrive {} (utf8 "a\n@".toList)) 40 5 (start {})).1 =
    [none, some (.inr (.Code .UnknownDelimiter)), none, some (.inl (bytes! "a")), some (.inr (.Code .UnknownDelimiter))] := by decide +kernel

/-- or without it: the call that takes its token fails as well. -/
theorem C68_false_lost : outline (nexts (borrowDrive {} (utf8 "- a\n@".toList)) 40 9 (start {})).1 =
    [none, none, none] ++ List.replicate 6 (some (.inr (.Code .UnknownDelimiter))) := by decide +kernel

/-- It does come first where no key is possible. -/
example : outline (nexts (borrowDrive {} (utf8 "k: a\n@".toList)) 40 6 (start {})).1 =
    [none, none, none, some (.inl (bytes! "k")), some (.inl (bytes! "a")), some (.inr (.Code .UnknownDelimiter))] := by decide +kernel

end Yary
