import Verif.Proof.Lazy.Chars
import Verif.Proof.Lazy.Hides
import Verif.Props.Scanner
import Verif.Props.Chunks

/-! # Scalars evaluated later

C20: scanning without evaluating scalars, and evaluating each of them later, gives the tokens that scanning gives.
C62: what scanning rejects is rejected as well without evaluating scalars, or when they are evaluated. -/

namespace Yary

open Spec Deferred

theorem Deferred.EvAt.close {base : Str} {e e' : TokenEntry} (h : EvAt base e e') : CloseValue e e' := by
  obtain ⟨h1, ⟨h2, t, h3⟩ | ⟨l, t, t', h2, h3, h4, h5⟩⟩ := h
  · exact .inl ⟨h1, t, by rw [h3]; rfl, by rw [h2, h3]; rfl⟩
  · rcases h5 with rfl | ⟨-, v, b, fold, hb, rfl, rfl⟩
    · exact .inl ⟨h1, t', by rw [h2]; rfl, by rw [h3]; exact h4⟩
    · refine .inr ⟨h1, v, b, blockStyle fold, ?_, hb, by rw [h2]; rfl, by rw [h3]; exact h4⟩
      cases fold
      · exact .inl rfl
      · exact .inr rfl

theorem Deferred.EvAt.same {base : Str} (ht : ¬ Loose base) {e e' : TokenEntry} (h : EvAt base e e') : SameValue e e' := by
  obtain ⟨h1, ⟨h2, t, h3⟩ | ⟨l, t, t', h2, h3, h4, h5⟩⟩ := h
  · exact ⟨h1, t, by rw [h3]; rfl, by rw [h2, h3]; rfl⟩
  · rcases h5 with rfl | ⟨h5, -⟩
    · exact ⟨h1, t', by rw [h2]; rfl, by rw [h3]; exact h4⟩
    · exact absurd h5 ht

/-- **C20**, for texts in which no `\\"` occurs and whose line breaks are CR LF, CR or LF: as long as calls that evaluate
scalars report tokens, the same calls without evaluation report tokens at the same positions, which evaluate to the same;
only a block scalar may lose its final line break. -/
theorem C20_partial (text : List Char) (hE : NoEscapedBackslash text) (hB : PlainBreaks text) (x y : Bool) (ops : List ROp) :
    Tracks CloseValue (history ⟨x, false⟩ text ops) (history ⟨y, true⟩ text ops) :=
  tracks_mono (fun _ _ h => h.close) (history_both (noEsc_of hE) (narrow_of hB) ops)

/-- **C20**, if in addition every `|` and `>` is followed by `+` or `-`: the same values. -/
theorem C20_chomped_partial (text : List Char) (hE : NoEscapedBackslash text) (hB : PlainBreaks text) (hC : Chomped text) (x y : Bool)
    (ops : List ROp) : Tracks SameValue (history ⟨x, false⟩ text ops) (history ⟨y, true⟩ text ops) :=
  tracks_mono (fun _ _ h => h.same (tight_of hC)) (history_both (noEsc_of hE) (narrow_of hB) ops)

/-! What is missing: the full property holds neither for `\\"`, nor for other line breaks, nor for the final line breaks of
block scalars. -/

/-- The values of the tokens that were popped. -/
def valuesOf (h : List (ROp × Out ReaderError (Option TokenEntry))) : List (Out ScanError Token) := (handed h).map fun e => valueOf e.wrap

/-- The tokens of a `"\\"` followed by anything are there, but without evaluation its end is not found. -/
theorem C20_false_backslash : ∃ text : List Char, PlainBreaks text ∧ Chomped text ∧ AllOk (history ⟨false, false⟩ text (List.replicate 3 .pop)) ∧
    ∃ e, (ROp.pop, .err e) ∈ history ⟨false, true⟩ text (List.replicate 3 .pop) := by
  refine ⟨"\"\\\\\"".toList, ?_, ?_, allOk_of_decide (by decide +kernel), .Scanner .UnexpectedEOF, by decide +kernel⟩
  · unfold PlainBreaks; decide +kernel
  · intro p c r h hc
    have h1 : c ∈ "\"\\\\\"".toList := by rw [h]; simp
    have h2 : ∀ c ∈ "\"\\\\\"".toList, c ≠ '|' ∧ c ≠ '>' := by decide +kernel
    rcases hc with hc | hc
    · exact absurd hc (h2 c h1).1
    · exact absurd hc (h2 c h1).2

/-- With the line break U+0085 after the `:` of a value, it even panics. -/
theorem C20_false_break : ∃ text : List Char, NoEscapedBackslash text ∧ Chomped text ∧ AllOk (history ⟨false, false⟩ text (List.replicate 5 .pop)) ∧
    (ROp.pop, .panic) ∈ history ⟨false, true⟩ text (List.replicate 5 .pop) := by
  refine ⟨"a:\u0085 b".toList, ?_, ?_, allOk_of_decide (by decide +kernel), by decide +kernel⟩
  · intro p r h
    have : '"' ∈ "a:\u0085 b".toList := by rw [h]; simp
    revert this; decide +kernel
  · intro p c r h hc
    have h1 : c ∈ "a:\u0085 b".toList := by rw [h]; simp
    have h2 : ∀ c ∈ "a:\u0085 b".toList, c ≠ '|' ∧ c ≠ '>' := by decide +kernel
    rcases hc with hc | hc
    · exact absurd hc (h2 c h1).1
    · exact absurd hc (h2 c h1).2

/-- The only line of this block scalar loses its line break. -/
theorem C20_false_chomp : ∃ text : List Char, NoEscapedBackslash text ∧ PlainBreaks text ∧
    valuesOf (history ⟨false, false⟩ text (List.replicate 6 .pop)) =
      [.ok (.StreamStart .UTF8), .ok .BlockMappingStart, .ok .Key, .ok (.Scalar (bytes! "k") .Plain), .ok .Value, .ok (.Scalar (bytes! "a\n") .Literal)] ∧
    valuesOf (history ⟨false, true⟩ text (List.replicate 6 .pop)) =
      [.ok (.StreamStart .UTF8), .ok .BlockMappingStart, .ok .Key, .ok (.Scalar (bytes! "k") .Plain), .ok .Value, .ok (.Scalar (bytes! "a") .Literal)] := by
  refine ⟨"k: |\n  a\nb: c\n".toList, ?_, ?_, by decide +kernel, by decide +kernel⟩
  · intro p r h
    have : '"' ∈ "k: |\n  a\nb: c\n".toList := by rw [h]; simp
    revert this; decide +kernel
  · unfold PlainBreaks; decide +kernel

/-! Examples: the hypotheses of both theorems are met by a text with scalars of every style, and the calls do report tokens. -/

/-- Scalars of every style. -/
def lazyText : List Char := "a: |-\n  x\n  y\nb: >+\n  z\n\nc: 'it''s'\nd: \"\\\"q\\\"\\n\"\ne: p q\n  r\n".toList

theorem lazyText_meets : NoEscapedBackslash lazyText ∧ PlainBreaks lazyText ∧ Chomped lazyText := by
  refine ⟨?_, ?_, ?_⟩
  · intro p r h
    have h0 : ∀ i, i < lazyText.length → (lazyText.drop i).take 3 ≠ ['\\', '\\', '"'] := by decide +kernel
    have h1 : (lazyText.drop p.length).take 3 = ['\\', '\\', '"'] := by rw [h]; simp
    refine h0 p.length ?_ h1
    rw [h]; simp
  · unfold PlainBreaks; decide +kernel
  · intro p c r h hc
    have h0 : ∀ i, i < lazyText.length → (lazyText.drop i).head? = some '|' ∨ (lazyText.drop i).head? = some '>' →
        (lazyText.drop (i + 1)).head? = some '+' ∨ (lazyText.drop (i + 1)).head? = some '-' := by decide +kernel
    have h1 : lazyText.drop p.length = c :: r := by rw [h]; simp
    have h2 : lazyText.drop (p.length + 1) = r := by rw [h, ← List.drop_drop]; simp
    have h3 := h0 p.length (by rw [h]; simp) (by rw [h1]; rcases hc with rfl | rfl <;> simp)
    rw [h2] at h3
    cases r with
    | nil => simp at h3
    | cons d r => exact ⟨r, by simpa using h3⟩

example : Tracks SameValue (history ⟨false, false⟩ lazyText (List.replicate 26 .pop)) (history ⟨false, true⟩ lazyText (List.replicate 26 .pop)) :=
  C20_chomped_partial _ lazyText_meets.1 lazyText_meets.2.1 lazyText_meets.2.2 _ _ _

example : AllOk (history ⟨false, false⟩ lazyText (List.replicate 26 .pop)) ∧
    (valuesOf (history ⟨false, true⟩ lazyText (List.replicate 26 .pop))).length = 24 ∧
    valuesOf (history ⟨false, true⟩ lazyText (List.replicate 26 .pop)) = valuesOf (history ⟨false, false⟩ lazyText (List.replicate 26 .pop)) ∧
    .ok (.Scalar (bytes! "\"q\"\n") .DoubleQuote) ∈ valuesOf (history ⟨false, true⟩ lazyText (List.replicate 26 .pop)) :=
  ⟨allOk_of_decide (by decide +kernel), by decide +kernel, by decide +kernel, by decide +kernel⟩

/-! ## Errors -/

theorem runOps_snoc {σ : Type} {drive : Drive σ} (a b : List ROp) (p : PeekReader σ) :
    runOps drive (a ++ b) p = ((runOps drive a p).1 ++ (runOps drive b (runOps drive a p).2).1, (runOps drive b (runOps drive a p).2).2) := by
  induction a generalizing p with
  | nil => rfl
  | cons x a ih => simp only [List.cons_append, runOps, ih]

theorem runOps_at {σ : Type} {drive : Drive σ} {ops : List ROp} {p : PeekReader σ} {x : ROp × Out ReaderError (Option TokenEntry)}
    (h : x ∈ (runOps drive ops p).1) : ∃ a b, ops = a ++ x.1 :: b ∧ x.2 = (x.1.run drive (runOps drive a p).2).1 := by
  induction ops generalizing p with
  | nil => cases h
  | cons op ops ih =>
    simp only [runOps] at h
    rcases List.mem_cons.1 h with rfl | h
    · exact ⟨[], ops, rfl, rfl⟩
    · obtain ⟨a, b, h1, h2⟩ := ih h
      exact ⟨op :: a, b, by rw [h1]; rfl, h2⟩

/-- A history in which no call panics comes to an end. -/
theorem history_ends {opts : SFlags} {text : List Char} {ops : List ROp} (h : NoPanic (history opts text ops)) :
    ∀ r ∈ history opts text ops, r.2 ≠ .panic ∧ r.2 ≠ .diverge := by
  intro r hr
  refine ⟨h r hr, ?_⟩
  obtain ⟨a, b, h1, h2⟩ := runOps_at hr
  rw [h2]
  refine C34_terminates (ops := a) (fun x hx => h x ?_) r.1
  unfold history
  rw [h1, runOps_snoc]
  exact List.mem_append_left _ hx

/-- **C62**, for texts in which no `\\"` occurs and whose line breaks are CR LF, CR or LF: if the calls that do not evaluate
scalars all succeed, up to the end of the tokens, and every token that was popped evaluates, then the same calls with
evaluation all succeed, unless one of them panics. -/
theorem C62_partial (text : List Char) (hE : NoEscapedBackslash text) (hB : PlainBreaks text) (x y : Bool) (ops : List ROp)
    (hok : AllOk (history ⟨y, true⟩ text (ops ++ [.pop]))) (hend : (history ⟨y, true⟩ text (ops ++ [.pop])).getLast? = some (.pop, .ok none))
    (hval : ∀ v ∈ valuesOf (history ⟨y, true⟩ text (ops ++ [.pop])), ∃ t, v = .ok t)
    (hn : NoPanic (history ⟨x, false⟩ text (ops ++ [.pop]))) : AllOk (history ⟨x, false⟩ text (ops ++ [.pop])) := by
  rcases history_hides (y := y) (noEsc_of hE) (narrow_of hB) _ (history_ends hn) hok with h | ⟨b, h1, h2⟩
  · exact h
  · have hw : waiting (readerAfter ⟨y, true⟩ text (ops ++ [.pop])) = [] := by
      unfold history at hend
      unfold readerAfter
      rw [runOps_snoc] at hend ⊢
      simp only [runOps, List.getLast?_append, List.getLast?_singleton, Option.some_or, Option.some.injEq, Prod.mk.injEq, true_and, ROp.run] at hend ⊢
      generalize (runOps (borrowDrive ⟨y, true⟩ (utf8 text)) ops freshReader).2 = p at hend ⊢
      exact pop_none (d := borrowDrive ⟨y, true⟩ (utf8 text)) (Prod.ext hend rfl)
    rw [hw, List.append_nil] at h1
    obtain ⟨t, ht⟩ := hval _ (List.mem_map_of_mem h1)
    obtain ⟨l, er, g1, g2⟩ := h2
    rw [g1] at ht
    simp only [valueOf, g2] at ht
    cases ht

/-! What is missing: without the conditions on the text it is false, and the calls that evaluate may panic. -/

/-- The error in what follows a `"\\"` goes by unseen. -/
theorem C62_false_backslash : ∃ text : List Char, PlainBreaks text ∧
    AllOk (history ⟨false, true⟩ text (List.replicate 4 .pop)) ∧ (history ⟨false, true⟩ text (List.replicate 4 .pop)).getLast? = some (.pop, .ok none) ∧
    valuesOf (history ⟨false, true⟩ text (List.replicate 4 .pop)) = [.ok (.StreamStart .UTF8), .ok (.Scalar (bytes! "\\") .DoubleQuote), .ok .StreamEnd] ∧
    NoPanic (history ⟨false, false⟩ text (List.replicate 4 .pop)) ∧
    (ROp.pop, .err (.Scanner .UnexpectedEOF)) ∈ history ⟨false, false⟩ text (List.replicate 4 .pop) := by
  refine ⟨"\"\\\\\" 'x\"".toList, ?_, allOk_of_decide (by decide +kernel), by decide +kernel, by decide +kernel, noPanic_of_decide (by decide +kernel), by decide +kernel⟩
  unfold PlainBreaks; decide +kernel

theorem values_of_decide {l : List (Out ScanError Token)} (h : (l.all fun v => match v with | .ok _ => true | _ => false) = true) :
    ∀ v ∈ l, ∃ t, v = .ok t := by
  intro v hv
  have := List.all_eq_true.1 h v hv
  cases v with
  | ok t => exact ⟨t, rfl⟩
  | err e => cases this
  | panic => cases this
  | diverge => cases this

example : AllOk (history ⟨false, false⟩ lazyText (List.replicate 24 .pop ++ [.pop])) :=
  C62_partial _ lazyText_meets.1 lazyText_meets.2.1 _ false _ (allOk_of_decide (by decide +kernel)) (by decide +kernel)
    (values_of_decide (by decide +kernel)) (noPanic_of_decide (by decide +kernel))

/-- Without the evaluation of the scalars nothing is wrong with an escape that is none. -/
example : AllOk (history ⟨false, true⟩ "\"\\q\"".toList (List.replicate 4 .pop)) ∧
    (history ⟨false, true⟩ "\"\\q\"".toList (List.replicate 4 .pop)).getLast? = some (.pop, .ok none) ∧
    valuesOf (history ⟨false, true⟩ "\"\\q\"".toList (List.replicate 4 .pop)) = [.ok (.StreamStart .UTF8), .err .UnknownEscape, .ok .StreamEnd] ∧
    (ROp.pop, .err (.Scanner .UnknownEscape)) ∈ history ⟨false, false⟩ "\"\\q\"".toList (List.replicate 4 .pop) :=
  ⟨allOk_of_decide (by decide +kernel), by decide +kernel, by decide +kernel, by decide +kernel⟩

end Yary
