import Verif.Proof.Chunk.Base

/-! # Scanning a whole text asks for no more of it -/

namespace Yary.Chunk

open Scan

/-- Something other than a request for more text. -/
def NoX {α : Type} (x : Out ScanError α) : Prop := x ≠ .err .Extend

namespace NoX

variable {α β : Type}

theorem ok {a : α} : NoX (.ok a) := fun h => by cases h
theorem panic : NoX (.panic : Out ScanError α) := fun h => by cases h
theorem diverge : NoX (.diverge : Out ScanError α) := fun h => by cases h
theorem err {e : ScanError} (he : e ≠ .Extend) : NoX (.err e : Out ScanError α) := fun h => by cases h; exact he rfl

theorem bind {x : Out ScanError α} {f : α → Out ScanError β} (h : NoX x) (hf : ∀ a, NoX (f a)) : NoX (x >>= f) := by
  cases x with
  | ok a => exact hf a
  | err e => intro h'; exact h (by cases h'; rfl)
  | panic => exact .panic
  | diverge => exact .diverge

end NoX

variable {o : SFlags}

theorem cache_nox (hx : o.extendable = false) {n : Nat} {s : Str} : NoX (cache o n s) := by
  rw [cache_whole o hx]; exact .ok
theorem adv_nox {c : Cur} {n : Nat} : NoX (c.adv n) := by
  unfold Cur.adv; split <;> first | exact .ok | exact .panic
theorem skip_nox {c : Cur} {n : Nat} : NoX (c.skip n) := by
  unfold Cur.skip; split <;> first | exact .ok | exact .panic
theorem line_nox {c : Cur} : NoX c.line := by
  unfold Cur.line; split <;> first | exact .ok | exact .panic
theorem slice_nox {s : Str} {a b : Nat} : NoX (slice s a b) := by
  unfold slice; split <;> first | exact .ok | exact .panic
theorem fromUtf8_nox {s : Str} : NoX (fromUtf8Unwrap s) := by
  unfold fromUtf8Unwrap; split <;> first | exact .ok | exact .panic
theorem truncEnd_nox {s : Str} {n : Nat} : NoX (truncEnd s n) := by
  unfold truncEnd; split <;> first | exact .ok | exact .panic

/-- Take the function apart. -/
macro "nox" : tactic => `(tactic| repeat' first
  | exact NoX.ok
  | exact NoX.panic
  | exact NoX.diverge
  | exact NoX.err (by decide)
  | assumption
  | exact cache_nox (by assumption)
  | exact adv_nox
  | exact skip_nox
  | exact line_nox
  | exact slice_nox
  | exact fromUtf8_nox
  | exact truncEnd_nox
  | (with_reducible refine NoX.bind ?_ fun _ => ?_)
  | split)

variable (hx : o.extendable = false)
include hx

theorem takeWhileLen_nox {f : Byte → Bool} {s : Str} : NoX (takeWhileLen o f s) := by
  induction s with
  | nil => rw [takeWhileLen, hx]; exact .ok
  | cons b t ih => rw [takeWhileLen]; nox

theorem eatWs_nox {comments : Bool} {c : Cur} : NoX (eatWs o comments c) := by
  unfold eatWs
  generalize c.buf.length + 1 = fuel
  generalize false = chomp
  induction fuel generalizing chomp c with
  | zero => exact .diverge
  | succ fuel ih =>
    have ih := @ih
    rw [eatWsLoop]
    nox <;> exact ih _

theorem scanAnchor_nox {a : Bool} {c : Cur} : NoX (scanAnchor o a c) := by
  unfold scanAnchor checkAnchorEnd
  have := fun f s => takeWhileLen_nox hx (f := f) (s := s)
  nox <;> exact this _ _

theorem scanVersionNumber_nox {c : Cur} : NoX (scanVersionNumber o c) := by
  unfold scanVersionNumber
  have := fun f s => takeWhileLen_nox hx (f := f) (s := s)
  nox <;> exact this _ _

theorem percentOctet_nox {s : Str} : NoX (percentOctet o s) := by
  unfold percentOctet
  nox

theorem percentTrail_nox {n : Nat} {s : Str} : NoX (percentTrail o n s) := by
  induction n generalizing s with
  | zero => exact .ok
  | succ n ih =>
    have := fun s => percentOctet_nox hx (s := s)
    rw [percentTrail]
    nox
    · exact this _
    · exact ih

theorem tagUriUnescape_nox {s : Str} : NoX (tagUriUnescape o s) := by
  unfold tagUriUnescape
  nox
  · exact percentOctet_nox hx
  · exact percentTrail_nox hx

theorem scanUriLoop_nox {v : Bool} {base : Str} {fuel : Nat} {st : UriSt} : NoX (scanUriLoop o v base fuel st) := by
  induction fuel generalizing st with
  | zero => exact .diverge
  | succ fuel ih =>
    rw [scanUriLoop]
    unfold UriSt.push UriSt.percent
    nox
    · exact ih
    · exact tagUriUnescape_nox hx
    · exact ih

theorem scanTagUri_nox {v : Bool} {c : Cur} : NoX (scanTagUri o v c) := by
  unfold scanTagUri
  nox
  exact scanUriLoop_nox hx

theorem scanTagHandle_nox {c : Cur} : NoX (scanTagHandle o c) := by
  unfold scanTagHandle
  nox
  exact takeWhileLen_nox hx

theorem scanTagDirective_nox {c : Cur} : NoX (scanTagDirective o c) := by
  unfold scanTagDirective requireBlank requireWhiteSpace
  nox
  · exact scanTagHandle_nox hx
  · exact eatWs_nox hx
  · exact scanTagUri_nox hx

theorem scanNodeTag_nox {c : Cur} : NoX (scanNodeTag o c) := by
  unfold scanNodeTag scanVerbatim requireClose
  nox <;> first | exact scanTagUri_nox hx | exact scanTagHandle_nox hx

theorem scanDirective_nox {kind : DirectiveKind} {c : Cur} : NoX (scanDirective o kind c) := by
  unfold scanDirective requireDot
  nox <;> first | exact eatWs_nox hx | exact scanVersionNumber_nox hx | exact scanTagDirective_nox hx

theorem directiveToken_nox {c : Cur} : NoX (directiveToken o c) := by
  unfold directiveToken DirectiveKind.new
  nox
  all_goals exact scanDirective_nox hx

omit hx in
theorem readHex_nox {n v : Nat} {s : Str} : NoX (readHex n v s) := by
  induction n generalizing v s with
  | zero => rw [readHex]; exact .ok
  | succ n ih =>
    cases s with
    | nil => rw [readHex]; exact .err (by decide)
    | cons b t =>
      rw [readHex]
      split
      · exact ih
      · exact .err (by decide)

theorem flowUnescape_nox {s : Str} : NoX (flowUnescape o s) := by
  unfold flowUnescape
  nox
  exact readHex_nox

omit hx in
theorem flowNoBorrow_nox {base : Str} {st : FlowSt} : NoX (st.noBorrow base) := by unfold FlowSt.noBorrow; nox
omit hx in
theorem flowPush_nox {st : FlowSt} : NoX st.push := by unfold FlowSt.push; nox

theorem flowWord_nox {base : Str} {single : Bool} {fuel : Nat} {st : FlowSt} : NoX (flowWord o base single fuel st) := by
  induction fuel generalizing st with
  | zero => exact .diverge
  | succ fuel ih =>
    rw [flowWord]
    nox <;> first | exact ih | exact flowNoBorrow_nox | exact flowPush_nox | exact flowUnescape_nox hx

theorem flowSpace_nox {base : Str} {fuel : Nat} {st : FlowSt} : NoX (flowSpace o base fuel st) := by
  induction fuel generalizing st with
  | zero => exact .diverge
  | succ fuel ih =>
    rw [flowSpace]
    nox <;> first | exact ih | exact flowNoBorrow_nox | exact flowPush_nox

theorem flowLoop_nox {base : Str} {single : Bool} {fuel : Nat} {st : FlowSt} : NoX (flowLoop o base single fuel st) := by
  induction fuel generalizing st with
  | zero => exact .diverge
  | succ fuel ih =>
    rw [flowLoop]
    unfold flowJoin
    nox <;> first | exact ih | exact flowNoBorrow_nox | exact flowWord_nox hx | exact flowSpace_nox hx

theorem flowLazyLoop_nox {single : Bool} {fuel : Nat} {c : Cur} : NoX (flowLazyLoop o single fuel c) := by
  induction fuel generalizing c with
  | zero => exact .diverge
  | succ fuel ih =>
    rw [flowLazyLoop]
    nox <;> exact ih

theorem scanFlow_nox {single : Bool} {c : Cur} : NoX (scanFlow o single c) := by
  unfold scanFlow scanFlowLazy scanFlowEager flowSlice
  nox
  · exact flowLazyLoop_nox hx
  · exact flowLoop_nox hx

omit hx in
theorem plainNoBorrow_nox {base : Str} {st : PlainSt} : NoX (st.noBorrow base) := by unfold PlainSt.noBorrow; nox
omit hx in
theorem plainPush_nox {st : PlainSt} : NoX st.push := by unfold PlainSt.push; nox

theorem plainWord_nox {block : Bool} {fuel : Nat} {st : PlainSt} : NoX (plainWord o block fuel st) := by
  induction fuel generalizing st with
  | zero => exact .diverge
  | succ fuel ih =>
    rw [plainWord]
    nox <;> first | exact ih | exact plainPush_nox

theorem plainSpace_nox {base : Str} {fuel : Nat} {st : PlainSt} : NoX (plainSpace o base fuel st) := by
  induction fuel generalizing st with
  | zero => exact .diverge
  | succ fuel ih =>
    rw [plainSpace]
    nox <;> first | exact ih | exact plainNoBorrow_nox | exact plainPush_nox

theorem plainLoop_nox {base : Str} {i : Nat} {block : Bool} {fuel : Nat} {st : PlainSt} :
    NoX (plainLoop o base i block fuel st) := by
  induction fuel generalizing st with
  | zero => exact .diverge
  | succ fuel ih =>
    rw [plainLoop]
    unfold plainJoin
    nox <;> first | exact ih | exact plainWord_nox hx | exact plainSpace_nox hx

theorem plainLazyWord_nox {block : Bool} {fuel : Nat} {st : PlainLazySt} : NoX (plainLazyWord o block fuel st) := by
  induction fuel generalizing st with
  | zero => exact .diverge
  | succ fuel ih =>
    rw [plainLazyWord]
    nox <;> exact ih

theorem plainLazySpace_nox {fuel : Nat} {st : PlainLazySt} : NoX (plainLazySpace o fuel st) := by
  induction fuel generalizing st with
  | zero => exact .diverge
  | succ fuel ih =>
    rw [plainLazySpace]
    nox <;> exact ih

theorem plainLazyLoop_nox {base : Str} {i : Nat} {block : Bool} {fuel : Nat} {st : PlainLazySt} :
    NoX (plainLazyLoop o base i block fuel st) := by
  induction fuel generalizing st with
  | zero => exact .diverge
  | succ fuel ih =>
    rw [plainLazyLoop]
    nox <;> first | exact ih | exact plainLazyWord_nox hx | exact plainLazySpace_nox hx

theorem scanPlain_nox {i : Nat} {block : Bool} {c : Cur} : NoX (scanPlain o i block c) := by
  unfold scanPlain
  rw [scanPlainLazy_eq, scanPlainEager_eq]
  unfold plainSlice
  nox
  · exact plainLazyLoop_nox hx
  · exact plainLoop_nox hx

theorem skipBlanksLoop_nox {fuel : Nat} {c : Cur} : NoX (skipBlanksLoop o fuel c) := by
  induction fuel generalizing c with
  | zero => exact .diverge
  | succ fuel ih =>
    rw [skipBlanksLoop]
    nox <;> exact ih

theorem toBreak_nox {fuel : Nat} {c : Cur} : NoX (toBreak o fuel c) := by
  induction fuel generalizing c with
  | zero => exact .diverge
  | succ fuel ih =>
    rw [toBreak]
    nox <;> exact ih

theorem blockHeader_nox {c : Cur} : NoX (blockHeader o c) := by
  unfold blockHeader scanHeaders skipBlanks
  nox <;> first | exact toBreak_nox hx | exact skipBlanksLoop_nox hx

theorem scanIndentLoop_nox {i fuel n : Nat} {c : Cur} : NoX (scanIndentLoop o i fuel c n) := by
  induction fuel generalizing c n with
  | zero => exact .diverge
  | succ fuel ih =>
    rw [scanIndentLoop]
    nox <;> exact ih

theorem scanIndent_nox {i n : Nat} {c : Cur} : NoX (scanIndent o i c n) := by
  unfold scanIndent
  nox
  exact scanIndentLoop_nox hx

theorem detectBlanks_nox {fuel : Nat} {st : DetectSt} : NoX (detectBlanks o fuel st) := by
  induction fuel generalizing st with
  | zero => exact .diverge
  | succ fuel ih =>
    rw [detectBlanks]
    nox <;> exact ih

theorem detectLoop_nox {fuel : Nat} {st : DetectSt} : NoX (detectLoop o fuel st) := by
  induction fuel generalizing st with
  | zero => exact .diverge
  | succ fuel ih =>
    rw [detectLoop]
    nox <;> first | exact ih | exact detectBlanks_nox hx

theorem blockIndent_nox {e : Option Nat} {i : Nat} {c : Cur} : NoX (blockIndent o e i c) := by
  unfold blockIndent detectIndent
  nox
  exact detectLoop_nox hx

theorem eatBreak_nox {c : Cur} {n : Nat} : NoX (eatBreak o c n) := by
  unfold eatBreak
  nox

theorem blockLoop_nox {base : Str} {r : Nat} {fold : Bool} {i fuel : Nat} {st : BlockSt} :
    NoX (blockLoop o base r fold i fuel st) := by
  induction fuel generalizing st with
  | zero => exact .diverge
  | succ fuel ih =>
    rw [blockLoop]
    unfold BlockSt.trapdoor
    nox <;> first | exact ih | exact toBreak_nox hx | exact eatBreak_nox hx | exact scanIndent_nox hx

omit hx in
theorem scanChomp_nox {base : Str} {style : ChompStyle} {st : BlockSt} : NoX (scanChomp base style st) := by
  unfold scanChomp chompBorrow chompCopy
  nox

theorem blockLazyLoop_nox {i fuel : Nat} {c : Cur} : NoX (blockLazyLoop o i fuel c) := by
  induction fuel generalizing c with
  | zero => exact .diverge
  | succ fuel ih =>
    rw [blockLazyLoop]
    nox <;> first | exact ih | exact toBreak_nox hx | exact eatBreak_nox hx | exact scanIndent_nox hx

theorem scanBlock_nox {i : Nat} {fold : Bool} {c : Cur} : NoX (scanBlock o i fold c) := by
  unfold scanBlock scanBlockLazy
  rw [scanBlockEager_eq]
  nox <;> first | exact blockHeader_nox hx | exact blockIndent_nox hx | exact blockLazyLoop_nox hx |
    exact blockLoop_nox hx | exact scanChomp_nox

/-! ## Steps -/

omit hx in
/-- A method that does not ask for more text. -/
def Calm {α : Type} (m : Scan α) : Prop := ∀ s, NoX (m s).1

omit hx in
variable {α β : Type} in
theorem Calm.bind {m : Scan α} {f : α → Scan β} (h : Calm m) (hf : ∀ a, Calm (f a)) : Calm (m >>= f) := by
  intro s
  have h1 := h s
  simp only [Bind.bind, SO.bind]
  generalize m s = r at h1
  obtain ⟨x, s1⟩ := r
  cases x with
  | ok a => exact hf a s1
  | err e => intro h'; exact h1 (by cases h'; rfl)
  | panic => exact .panic
  | diverge => exact .diverge

omit hx in
theorem Calm.get : Calm Scan.get := fun _ => .ok
omit hx in
theorem Calm.pure {α : Type} {a : α} : Calm (Pure.pure a : Scan α) := fun _ => .ok
omit hx in
theorem Calm.fail {α : Type} {e : ScanError} (h : e ≠ .Extend) : Calm (SO.fail e : Scan α) := fun _ => .err h
omit hx in
theorem Calm.lift {α : Type} {x : Out ScanError α} (h : NoX x) : Calm (SO.lift x : Scan α) := fun _ => h
omit hx in
theorem Calm.upd {f : Scanner → Scanner} : Calm (upd f) := fun _ => .ok
omit hx in
theorem Calm.enqueue {a : MaybeToken} {n : Nat} : Calm (enqueue a n) := fun _ => .ok
omit hx in
theorem Calm.push {a : Token} : Calm (push a) := fun _ => .ok
omit hx in
theorem Calm.takeKey : Calm takeKey := fun _ => .ok
omit hx in
theorem Calm.unrollIndent {c : Option Nat} : Calm (unrollIndent c) := fun _ => .ok
omit hx in
theorem Calm.popZeroIndent : Calm popZeroIndent := fun _ => .ok
omit hx in
theorem Calm.advance {n : Nat} : Calm (advance n) := by
  intro s
  unfold Scan.advance Cur.adv
  by_cases h : isBoundary s.buf n = true
  · simp only [if_pos h]; exact .ok
  · simp only [if_neg h]; exact .panic
omit hx in
theorem Calm.commit {b : Str} {m : MStats} : Calm (commit b m) := by
  intro s
  unfold Scan.commit
  split
  · exact .ok
  · exact .panic
omit hx in
theorem Calm.sub {α : Type} {m : MStats} {f : Cur → Out ScanError α} (h : ∀ c, NoX (f c)) : Calm (sub m f) :=
  .bind .get fun _ => .lift (h _)

omit hx in
/-- Take the method apart. -/
macro "calm" : tactic => `(tactic| repeat' first
  | exact Calm.pure
  | exact Calm.fail (by decide)
  | exact Calm.upd
  | exact Calm.enqueue
  | exact Calm.push
  | exact Calm.takeKey
  | exact Calm.unrollIndent
  | exact Calm.popZeroIndent
  | exact Calm.advance
  | exact Calm.commit
  | exact Calm.get
  | assumption
  | (with_reducible refine Calm.bind ?_ fun _ => ?_)
  | split)

omit hx in
theorem Calm.removeSavedKey : Calm removeSavedKey := by unfold Scan.removeSavedKey; calm
omit hx in
theorem Calm.saveKey : Calm saveKey := by
  have := Calm.removeSavedKey
  unfold Scan.saveKey; calm
omit hx in
theorem Calm.rollIndent {a b c : Nat} {map : Bool} : Calm (rollIndent a b c map) := by
  unfold Scan.rollIndent
  refine .bind .get fun s => ?_
  dsimp only
  generalize (if map = true then Token.BlockMappingStart else Token.BlockSequenceStart) = token
  calm
omit hx in
theorem Calm.rollHere {map : Bool} : Calm (rollHere map) := by
  unfold Scan.rollHere; exact .bind .get fun _ => .rollIndent
omit hx in
theorem Calm.finish {a : MaybeToken} {c : Cur} : Calm (finish a c) := by
  have := Calm.saveKey
  unfold Scan.finish; calm
omit hx in
theorem Calm.expireKey : Calm expireKey := by unfold Scan.expireKey; calm
omit hx in
theorem Calm.fetchStreamStart : Calm fetchStreamStart := by unfold Scan.fetchStreamStart; calm
omit hx in
theorem Calm.fetchStreamEnd : Calm fetchStreamEnd := by
  have := Calm.removeSavedKey
  unfold Scan.fetchStreamEnd; calm
omit hx in
theorem Calm.fetchDocumentMarker {b : Bool} : Calm (fetchDocumentMarker b) := by
  have := Calm.removeSavedKey
  unfold Scan.fetchDocumentMarker; calm
omit hx in
theorem Calm.fetchExplicitKey : Calm fetchExplicitKey := by
  have := Calm.removeSavedKey
  have := fun map => Calm.rollHere (map := map)
  unfold Scan.fetchExplicitKey Scan.explicitKeyCheck; calm; exact this _
omit hx in
theorem Calm.fetchValue : Calm fetchValue := by
  unfold Scan.fetchValue Scan.valueKey Scan.valueSaved Scan.valueBare Scan.valueCheck
  calm <;> first | exact Calm.rollHere | exact Calm.rollIndent
omit hx in
theorem Calm.fetchFlowStart {b : Bool} : Calm (fetchFlowStart b) := by
  have := Calm.saveKey
  unfold Scan.fetchFlowStart; calm
omit hx in
theorem Calm.fetchFlowEnd {b : Bool} : Calm (fetchFlowEnd b) := by
  have := Calm.removeSavedKey
  have h : ∀ x : Context, NoX x.flowDecrement := by
    intro x
    unfold Context.flowDecrement
    split
    · exact .err (by decide)
    · exact .ok
  unfold Scan.fetchFlowEnd; calm; exact .lift (h _)
omit hx in
theorem Calm.fetchFlowEntry : Calm fetchFlowEntry := by
  have := Calm.removeSavedKey
  unfold Scan.fetchFlowEntry; calm
omit hx in
theorem Calm.fetchBlockEntry : Calm fetchBlockEntry := by
  have := Calm.removeSavedKey
  have := fun map => Calm.rollHere (map := map)
  unfold Scan.fetchBlockEntry Scan.blockEntryCheck; calm; exact this _

theorem run_calm (f : Fetch) : Calm (run o f) := by
  cases f with
  | directive =>
    have h1 := Calm.sub (m := {}) fun c => directiveToken_nox hx (c := c)
    have h2 := Calm.removeSavedKey
    unfold run fetchDirective
    calm
  | marker b => exact .fetchDocumentMarker
  | flowStart b => exact .fetchFlowStart
  | flowEnd b => exact .fetchFlowEnd
  | flowEntry => exact .fetchFlowEntry
  | blockEntry => exact .fetchBlockEntry
  | explicitKey => exact .fetchExplicitKey
  | value => exact .fetchValue
  | anchor =>
    unfold run fetchAnchor
    exact .bind .get fun s => .bind (.sub fun c => scanAnchor_nox hx) fun _ => .finish
  | tag =>
    unfold run fetchTag
    exact .bind (.sub fun c => scanNodeTag_nox hx) fun _ => .finish
  | block fold =>
    unfold run fetchBlockScalar
    refine .bind .removeSavedKey fun _ => .bind .upd fun _ => .bind .get fun s =>
      .bind (.sub fun c => scanBlock_nox hx) fun _ => ?_
    calm
  | quoted =>
    unfold run fetchFlowScalar
    exact .bind .get fun s => .bind (.sub fun c => scanFlow_nox hx) fun _ => .finish
  | plain =>
    unfold run fetchPlainScalar
    refine .bind .get fun s => .bind (.sub fun c => scanPlain_nox hx) fun _ => .bind .saveKey fun _ => ?_
    calm
  | unknown => exact .fail (by decide)

/-- A step on a whole text does not ask for more of it. -/
theorem scanNextToken_calm : Calm (scanNextToken o) := by
  have h1 : Calm (eatWhitespace o) := by
    unfold eatWhitespace
    refine .bind (.sub fun c => eatWs_nox hx) fun _ => ?_
    calm
  have h2 : Calm (fetchNext o) := by
    unfold fetchNext
    refine .bind .get fun s => ?_
    split
    · exact .fetchStreamEnd
    · exact .bind (.lift (cache_nox hx)) fun _ => run_calm hx _
  have h3 := Calm.expireKey
  have h4 := Calm.fetchStreamStart
  unfold scanNextToken prepare
  calm

end Yary.Chunk
