import Verif.Proof.Chunk.Histories
import Verif.Proof.Chunk.Unread
import Verif.Props.Scanner

/-! # Reading in chunks

`Spec/Chunks` says what a source supplies, which errors reading itself can have, and when two histories agree. -/

namespace Yary

open Spec

variable {opts : SFlags} {size : Nat → Nat → Nat} {text : List Char} {src : Source} {err : Option IoError} {ops : List ROp}

/-! ### C21 -/

/-- **C21**, for scalars that are not lazy: whatever the size of the chunks, and whatever the calls, what a reader of a
source reports is what a reader of the whole text reports, token by token with its position, up to the first
error; unless it is the source that fails, or the end of a chunk is inside a character. Missing: chunks that
end inside a character, for which it is false (`C21_false`), and lazy scalars, of which `C21_lazy_partial` speaks. -/
theorem C21_partial (hsize : ∀ a b, 0 < size a b) (hl : opts.lazy = false) (hs : Supplies src (utf8 text) err) (ops : List ROp) :
    Agree (ReadFails size (utf8 text) err) (chunked size opts src ops) (history opts text ops) :=
  Chunk.owned_agrees hsize hl ((validUtf8_iff _).2 ⟨text, rfl⟩) hs ops

/-- A mapping in chunks of three bytes: the whole history succeeds, and its tokens are those of the text. -/
example : Supplies [(utf8 "a: [b, 'c\n d']\n".toList, none)] (utf8 "a: [b, 'c\n d']\n".toList) none ∧
    AllOk (chunked (fun _ _ => 3) {} [(utf8 "a: [b, 'c\n d']\n".toList, none)] (List.replicate 13 .pop)) ∧
    kindsHanded (chunked (fun _ _ => 3) {} [(utf8 "a: [b, 'c\n d']\n".toList, none)] (List.replicate 13 .pop)) =
      [.StreamStart, .BlockMappingStart, .Key, .Scalar, .Value, .FlowSequenceStart, .Scalar, .FlowEntry, .Scalar,
        .FlowSequenceEnd, .BlockEnd, .StreamEnd] :=
  ⟨.all _, allOk_of_decide (by decide +kernel), by decide +kernel⟩

theorem agree_upToError {E : ReaderError → Prop} (hE : ∀ e, ¬ E e) {h h' : List (ROp × Out ReaderError (Option TokenEntry))}
    (ha : Agree E h h') : upToError h = upToError h' := by
  induction ha with
  | nil => rfl
  | ok rest ih => simp [upToError, ih]
  | @same op x h h' hx =>
    cases x with
    | ok t => exact absurd rfl (hx t)
    | err e => rfl
    | panic => rfl
    | diverge => rfl
  | fails he => exact absurd he (hE _)

theorem cut_ascii (ascii : ∀ c ∈ text, c.toNat < 128) {n : Nat} (hn : n ≤ (utf8 text).length) : Cut (utf8 text) n := by
  refine ⟨text.take n, text.drop n, ?_, ?_⟩
  · rw [utf8_ascii fun c hc => ascii c (List.mem_of_mem_take hc), utf8_ascii fun c hc => ascii c (List.mem_of_mem_drop hc),
      ← List.map_append, List.take_append_drop, utf8_ascii ascii]
  · rw [utf8_ascii ascii, List.length_map] at hn
    rw [utf8_ascii fun c hc => ascii c (List.mem_of_mem_take hc), List.length_map, List.length_take]
    omega

/-- **C21**, for ASCII texts and scalars that are not lazy: whatever the size of the chunks, the reports are the same, up
to and including the first error. -/
theorem C21_ascii_partial (hsize : ∀ a b, 0 < size a b) (hl : opts.lazy = false) (ascii : ∀ c ∈ text, c.toNat < 128) (ops : List ROp) :
    upToError (chunked size opts [(utf8 text, none)] ops) = upToError (history opts text ops) := by
  refine agree_upToError ?_ (C21_partial hsize hl (.all _) ops)
  intro e he
  cases e with
  | IO e => cases he
  | UTF8 e =>
    obtain ⟨a, b, n, -, h1, h2⟩ := he
    exact h2 (cut_ascii ascii (Nat.le_of_lt h1))
  | Scanner e => exact he

/-- A text with an error in it, in chunks of five bytes. -/
example : (∀ c ∈ "k: {a: b, *c \n,\n, - ]]".toList, c.toNat < 128) ∧
    (upToError (chunked (fun _ _ => 5) {} [(utf8 "k: {a: b, *c \n,\n, - ]]".toList, none)] (List.replicate 16 .pop))).map (·.2.void) =
      List.replicate 14 (.ok ()) ++ [.err (.Scanner .InvalidBlockEntry)] := by
  refine ⟨by decide +kernel, by decide +kernel⟩

theorem le_nextPowerOfTwo (n : Nat) : n ≤ nextPowerOfTwo n := by
  unfold nextPowerOfTwo
  split
  · assumption
  · have := Nat.lt_log2_self (n := n - 1)
    omega

theorem le_chunkSize (a b : Nat) : 8192 ≤ chunkSize a b := by
  have := le_nextPowerOfTwo (8 * 1024 * max a 1 + b)
  unfold chunkSize
  omega

/-- **C21**, for texts of up to 8 KiB, the least the code reads at once, and scalars that are not lazy: the reports are the same,
up to and including the first error. -/
theorem C21_short_partial (hl : opts.lazy = false) (hn : (utf8 text).length ≤ 8192) (ops : List ROp) :
    upToError (chunked chunkSize opts [(utf8 text, none)] ops) = upToError (history opts text ops) := by
  refine agree_upToError ?_ (C21_partial (fun a b => by have := le_chunkSize a b; omega) hl (.all _) ops)
  intro e he
  cases e with
  | IO e => cases he
  | UTF8 e =>
    obtain ⟨a, b, n, h0, h1, -⟩ := he
    have := le_chunkSize a b
    omega
  | Scanner e => exact he

example : (utf8 "- a\n- !é b\n".toList).length ≤ 8192 := by decide +kernel

/-- **C21** is false of chunks that end inside a character: the second call reports an error of encoding, not the token. -/
theorem C21_false : ∃ (size : Nat → Nat → Nat) (text : List Char), (∀ a b, 0 < size a b) ∧
    (history {} text [.pop, .pop]).map (fun x => x.2.void) = [.ok (), .ok ()] ∧
    (chunked size {} [(utf8 text, none)] [.pop, .pop]).map (fun x => x.2.void) = [.ok (), .err (.UTF8 {})] :=
  ⟨fun _ _ => 8, "[a, b]\né".toList, fun _ _ => Nat.succ_pos 7, by decide +kernel, by decide +kernel⟩

/-- The values of the scalars a history handed out, when they are evaluated then. -/
def evaluated (h : List (ROp × Out ReaderError (Option TokenEntry))) : List (Out ScanError Token) :=
  (handed h).filterMap fun e => match e.wrap with
    | .Deferred l => some l.intoToken
    | _ => none

/-- **C21** is false of lazy scalars: evaluating a block scalar that was read in chunks reports that more input is needed. -/
theorem C21_lazy_false : ∃ text : List Char, (∀ c ∈ text, c.toNat < 128) ∧
    evaluated (history ⟨false, true⟩ text (List.replicate 6 .pop)) = [.ok (.Scalar (bytes! "k") .Plain), .ok (.Scalar (bytes! "a") .Literal)] ∧
    evaluated (chunked chunkSize ⟨false, true⟩ [(utf8 text, none)] (List.replicate 6 .pop)) =
      [.ok (.Scalar (bytes! "k") .Plain), .err .Extend] :=
  ⟨"k: |\n  a\nb: c\n".toList, by decide +kernel, by decide +kernel, by decide +kernel⟩

theorem mem_utf8 {c : Char} (hc : c.toNat < 128) {text : List Char} (h : c.toNat ∈ utf8 text) : c ∈ text := by
  unfold utf8 at h
  rw [List.mem_flatMap] at h
  obtain ⟨d, hd, h⟩ := h
  have hcd : c.toNat = d.val.toNat := by
    rw [utf8Char_eq] at h
    generalize d.val.toNat = v at h ⊢
    generalize c.toNat = w at h hc ⊢
    split at h
    · simpa using h
    · split at h
      · simp at h; omega
      · split at h
        · simp at h; omega
        · simp at h; omega
  have : c = d := Char.ext (UInt32.toNat_inj.1 hcd)
  rwa [this]

theorem sameLater_settle (e : TokenEntry) : SameLater e (Chunk.mapE Chunk.settle e) := by
  obtain ⟨w, n⟩ := e
  cases w with
  | Token t => exact .inl rfl
  | Deferred l =>
    have hv := Chunk.settle_value l
    cases l with
    | flow => exact .inl rfl
    | plain => exact .inl rfl
    | block o s st i f =>
      by_cases hc : (validUtf8 s && (startsWith s b! '|' || startsWith s b! '>')) = true
      · have h2 : Chunk.settleLazy (.block o s st i f) = .block { o with extendable := false } s st i f := by
          simp only [Chunk.settleLazy]
          rw [if_pos hc]
        rw [h2] at hv
        refine .inr ⟨rfl, o, s, st, i, f, rfl, ?_, ?_⟩
        · show MaybeToken.Deferred _ = _
          rw [h2]
        · show (Lazy.block o s st i f).intoToken = _ ∨ (Chunk.settleLazy (.block o s st i f)).intoToken = (Lazy.block o s st i f).intoToken
          rw [h2]
          exact hv
      · left
        have h2 : Chunk.settleLazy (.block o s st i f) = .block o s st i f := by
          simp only [Chunk.settleLazy]
          rw [if_neg hc]
        show TokenEntry.mk (.Deferred (Chunk.settleLazy _)) n = _
        rw [h2]

/-- **C21**, for lazy scalars in texts without a carriage return: whatever the size of the chunks, and whatever the calls, a
reader of a source reports the tokens that a reader of the whole text reports, at the same positions, up to the first error;
except that a block scalar may have been told that the text goes on, so that evaluating it may ask for more text, which it
does in `C21_lazy_false`. Missing: texts with a carriage return, for which it is false (`C21_lazy_return_false`). -/
theorem C21_lazy_partial (hsize : ∀ a b, 0 < size a b) (hl : opts.lazy = true) (hr : '\r' ∉ text)
    (hs : Supplies src (utf8 text) err) (ops : List ROp) :
    AgreeBy SameLater (ReadFails size (utf8 text) err) (chunked size opts src ops) (history opts text ops) :=
  Chunk.agreeBy_mono (fun a b h => h ▸ sameLater_settle a)
    (Chunk.owned_agreesBy hsize (.inr ⟨hl, .inl ⟨rfl, fun h => hr (mem_utf8 (by decide) h)⟩⟩) ((validUtf8_iff _).2 ⟨text, rfl⟩) hs ops)

/-- Scalars of three kinds, in chunks of five bytes: the whole history succeeds. -/
example : '\r' ∉ "a: 'b\n c'\nd: |\n  e\nf: [g]\n".toList ∧
    AllOk (chunked (fun _ _ => 5) ⟨false, true⟩ [(utf8 "a: 'b\n c'\nd: |\n  e\nf: [g]\n".toList, none)] (List.replicate 20 .pop)) ∧
    (evaluated (chunked (fun _ _ => 5) ⟨false, true⟩ [(utf8 "a: 'b\n c'\nd: |\n  e\nf: [g]\n".toList, none)] (List.replicate 20 .pop))).map
      Out.void = [.ok (), .ok (), .ok (), .err .Extend, .ok (), .ok ()] :=
  ⟨by decide +kernel, allOk_of_decide (by decide +kernel), by decide +kernel⟩

/-- **C21**, for lazy scalars in texts without the characters that begin block scalars: what a reader of a source reports is what
a reader of the whole text reports, as in `C21_partial`, so that the scalars evaluate to the same. -/
theorem C21_lazy_exact_partial (hsize : ∀ a b, 0 < size a b) (hl : opts.lazy = true) (hb : '|' ∉ text ∧ '>' ∉ text)
    (hs : Supplies src (utf8 text) err) (ops : List ROp) :
    Agree (ReadFails size (utf8 text) err) (chunked size opts src ops) (history opts text ops) :=
  Chunk.agreeBy_agree (Chunk.owned_agreesBy hsize (g := id) (.inr ⟨hl, .inr ⟨rfl, fun h => hb.1 (mem_utf8 (by decide) h),
    fun h => hb.2 (mem_utf8 (by decide) h)⟩⟩) ((validUtf8_iff _).2 ⟨text, rfl⟩) hs ops)

/-- A text with carriage returns, in chunks of three bytes: the whole history succeeds, and so does evaluating the scalars. -/
example : '|' ∉ "a: 'b\r\n c'\r\nd: e\r\n f\r\n".toList ∧ '>' ∉ "a: 'b\r\n c'\r\nd: e\r\n f\r\n".toList ∧
    AllOk (chunked (fun _ _ => 3) ⟨false, true⟩ [(utf8 "a: 'b\r\n c'\r\nd: e\r\n f\r\n".toList, none)] (List.replicate 20 .pop)) ∧
    (evaluated (chunked (fun _ _ => 3) ⟨false, true⟩ [(utf8 "a: 'b\r\n c'\r\nd: e\r\n f\r\n".toList, none)] (List.replicate 20 .pop))) =
      [.ok (.Scalar (bytes! "a") .Plain), .ok (.Scalar (bytes! "b c") .SingleQuote), .ok (.Scalar (bytes! "d") .Plain),
        .ok (.Scalar (bytes! "e f") .Plain)] :=
  ⟨by decide +kernel, by decide +kernel, allOk_of_decide (by decide +kernel), by decide +kernel⟩

/-- **C21** is false of lazy block scalars when a chunk ends between carriage return and line feed: the line feed counts as a
line of its own, and the position after the scalar is not the same. -/
theorem C21_lazy_return_false : ∃ text : List Char, (∀ c ∈ text, c.toNat < 128) ∧
    (handed (history ⟨false, true⟩ text [.pop, .pop])).map TokenEntry.readAt = [0, 5] ∧
    (handed (chunked (fun _ _ => 4) ⟨false, true⟩ [(utf8 text, none)] [.pop, .pop])).map TokenEntry.readAt = [0, 4] :=
  ⟨"|2 \r\nb: c\n".toList, by decide +kernel, by decide +kernel, by decide +kernel⟩

/-! ### C41 -/

theorem ownedLoop_calm : ∀ fuel (ow : Owned) (sc : Scanner) (out : List TokenEntry),
    (ownedLoop size opts fuel ow sc out).1 ≠ .err (.Scanner .Extend) := by
  intro fuel
  induction fuel with
  | zero => intro ow sc out h; cases h
  | succ fuel ih =>
    intro ow sc out
    rw [ownedLoop]
    split
    · exact fun h => by cases h
    · next sc1 more _ =>
      unfold Owned.refresh
      split
      · next h =>
        exact ih _ _ _
      · next e o h =>
        simp only
        intro hs
        cases hs
        split at h
        · cases h
        · split at h
          · simp only at h
            split at h <;> cases h
          · next e' s' ht =>
            cases h
            unfold Source.take at ht
            split at ht
            · cases ht
            · split at ht
              · cases ht
              · split at ht <;> cases ht
          · cases h
          · cases h
      · exact fun h => by cases h
      · exact fun h => by cases h
    · next e he _ =>
      simp only
      intro hs
      cases hs
      exact he rfl
    · exact fun h => by cases h
    · exact fun h => by cases h

theorem void_eq_err {α : Type} {e : ReaderError} {x : Out ReaderError α} : x.void = .err e ↔ x = .err e := by
  cases x <;> simp [Out.void]

/-- **C41**: no call on a whole text reports that more input is needed. -/
theorem C41_whole (opts : SFlags) (text : List Char) (ops : List ROp) :
    ∀ x ∈ history opts text ops, x.2 ≠ .err (.Scanner .Extend) := by
  intro x hx h
  refine reader_reports (drive := borrowDrive opts (utf8 text)) (K := fun o => o ≠ .err (.Scanner .Extend))
    (J := fun _ _ => True) (src := {}) (by simp) ?_ trivial ops x hx (void_eq_err.2 h)
  intro s D o b s' _ hd
  refine ⟨?_, trivial⟩
  unfold borrowDrive at hd
  have : (scanTokens { opts with extendable := false } (utf8 text) s).1 ≠ .err .Extend := Chunk.scanLoop_calm rfl _ _ _
  generalize scanTokens { opts with extendable := false } (utf8 text) s = r at hd this
  obtain ⟨x, sc, out⟩ := r
  intro ho
  subst ho
  cases x with
  | ok u => cases hd
  | err e =>
    cases hd
    exact this rfl
  | panic => cases hd
  | diverge => cases hd

/-- It is only when the scanner has been told that there may be more that it asks for more. -/
example : (scanTokens ⟨true, false⟩ (bytes! "a: b") {}).1 = .ok () ∧
    (scanTokens ⟨true, false⟩ (bytes! "a: b") (scanTokens ⟨true, false⟩ (bytes! "a: b") {}).2.1).1 = .err .Extend ∧
    (scanTokens ⟨false, false⟩ (bytes! "a: b") (scanTokens ⟨true, false⟩ (bytes! "a: b") {}).2.1).1 = .ok () := by
  decide +kernel

/-- **C41**: nor does any call on a source read in chunks. -/
theorem C41_chunks (size : Nat → Nat → Nat) (opts : SFlags) (src : Source) (ops : List ROp) :
    ∀ x ∈ chunked size opts src ops, x.2 ≠ .err (.Scanner .Extend) := by
  intro x hx h
  refine reader_reports (drive := ownedDrive size opts) (K := fun o => o ≠ .err (.Scanner .Extend))
    (J := fun _ _ => True) (src := ({ source := src }, {})) (by simp) ?_ trivial ops x hx (void_eq_err.2 h)
  intro s D o b s' _ hd
  refine ⟨?_, trivial⟩
  have := ownedLoop_calm (size := size) (opts := opts) (s.1.source.reads + 3) s.1 s.2 []
  unfold ownedDrive at hd
  rw [hd] at this
  exact this

/-! ### C36 -/

/-- **C36**: after any history of calls, as long as nothing has panicked, a reader is in one of the states of
`Between`, of which the next theorems speak. -/
theorem C36_states {ops : List ROp} (h : NoPanic (chunked size opts src ops)) :
    Between true size opts src (chunkedAfter size opts src ops).reader.src.1 (chunkedAfter size opts src ops).reader.src.2 := by
  refine (reader_kept (J := fun s _ => Between true size opts src s.1 s.2) (K := fun o => o ≠ .panic)
    (drive := ownedDrive size opts) (src := ({ source := src }, {})) ?_ .start ops (fun x hx hp => h x hx (void_eq_panic.1 hp))).2
  intro s D o b s' hJ hd hK
  have := Chunk.ownedLoop_between (s.1.source.reads + 3) s.1 s.2 [] hJ
  unfold ownedDrive at hd
  rw [hd] at this
  exact this hK

/-- **C36**: and if reading itself has not failed either, in one without such failures. -/
theorem C36_states_smooth {ops : List ROp} (h : ∀ x ∈ chunked size opts src ops, (∃ t, x.2 = .ok t) ∨ ∃ e, x.2 = .err (.Scanner e)) :
    Between false size opts src (chunkedAfter size opts src ops).reader.src.1 (chunkedAfter size opts src ops).reader.src.2 := by
  refine (reader_kept (J := fun s _ => Between false size opts src s.1 s.2) (K := fun o => o = .ok () ∨ ∃ e, o = .err (.Scanner e))
    (drive := ownedDrive size opts) (src := ({ source := src }, {})) ?_ .start ops ?_).2
  · intro s D o b s' hJ hd hK
    have := Chunk.ownedLoop_smooth (s.1.source.reads + 3) s.1 s.2 [] hJ
    unfold ownedDrive at hd
    rw [hd] at this
    exact this hK
  · intro x hx
    rcases h x hx with ⟨t, h⟩ | ⟨e, h⟩
    · rw [h]; exact .inl rfl
    · rw [h]; exact .inr ⟨e, rfl⟩

/-- A sequence in chunks of four bytes, with an error of the scanner on the way. -/
example : ((chunked (fun _ _ => 4) {} [(bytes! "- a\n- [b, c]\n- - ]", none)] (List.replicate 30 .pop)).all fun x =>
      match x.2 with | .ok _ | .err (.Scanner _) => true | _ => false) = true ∧
    (chunkedAfter (fun _ _ => 4) {} [(bytes! "- a\n- [b, c]\n- - ]", none)] (List.replicate 30 .pop)).reader.src.1.tails = 6 := by
  decide +kernel

/-- **C36**: the scanner reads on from where it was in the chunk, and comes to an end. -/
theorem C36_scan {errs : Bool} {ow : Owned} {sc sc' : Scanner} {r : Out ScanError Unit} {out : List TokenEntry}
    (h : Between errs size opts src ow sc)
    (hs : scanTokens { opts with extendable := !ow.exhausted } ow.head sc = (r, sc', out)) (hr : r ≠ .panic) :
    r ≠ .diverge ∧ ∃ p, ow.head.drop sc.offset = p ++ ow.head.drop sc'.offset := by
  obtain ⟨-, h1, h2, -⟩ := Chunk.scanTokens_sound (Chunk.between_sound h) hs hr
  refine ⟨h1, (ow.head.drop sc.offset).take (sc'.offset - sc.offset), ?_⟩
  conv => lhs; rw [← List.take_append_drop (sc'.offset - sc.offset) (ow.head.drop sc.offset)]
  rw [List.drop_drop, show sc.offset + (sc'.offset - sc.offset) = sc'.offset by omega]

/-- **C36**: when the scanner asks for more text, the source has not ended yet, and reading goes on without a panic; unless it
fails, the scanner goes on with the rest of the chunk followed by the next bytes of the source, and the source
counts as ended exactly if there are none. -/
theorem C36_next {errs : Bool} {ow : Owned} {sc sc' : Scanner} {out : List TokenEntry} (h : Between errs size opts src ow sc)
    (hs : scanTokens { opts with extendable := !ow.exhausted } ow.head sc = (.err .Extend, sc', out)) :
    ow.exhausted = false ∧
    ((∃ ow' bytes, ow.refresh size sc'.offset = (.ok (), ow') ∧ ow'.head = ow.head.drop sc'.offset ++ bytes ∧
      bytesOf ow.source = bytes ++ bytesOf ow'.source ∧ (ow'.exhausted = true ↔ bytes = [])) ∨
    ∃ ow' e, ow.refresh size sc'.offset = (.err e, ow')) := by
  obtain ⟨h1, -, -, h2⟩ := Chunk.scanTokens_sound (Chunk.between_sound h) hs (fun h => by cases h)
  refine ⟨h2 rfl, ?_⟩
  have := Chunk.refresh_sound (size := size) h1 (h2 rfl)
  cases hr : ow.refresh size sc'.offset with
  | mk x ow' =>
  rw [hr] at this
  cases x with
  | ok u =>
    obtain ⟨-, bytes, h3, h4, h5⟩ := this
    exact .inl ⟨ow', bytes, rfl, h3, h4, h5⟩
  | err e => exact .inr ⟨ow', e, rfl⟩
  | panic => exact this.elim
  | diverge => exact this.elim

/-- The second time the scanner asks for more, in chunks of four bytes: it has read two bytes and goes on with six. -/
example : let s := (chunkedAfter (fun _ _ => 4) {} [(bytes! "- ab c: d", none)] (List.replicate 3 .pop)).reader.src
    let r := scanTokens ⟨true, false⟩ s.1.head s.2
    s.1.exhausted = false ∧ s.1.head = bytes! "- ab" ∧ r.1 = .err .Extend ∧ r.2.1.offset = 2 ∧
      (s.1.refresh (fun _ _ => 4) 2).1 = .ok () ∧ (s.1.refresh (fun _ _ => 4) 2).2.head = bytes! "ab c: " ∧
      bytesOf (s.1.refresh (fun _ _ => 4) 2).2.source = bytes! "d" := by
  decide +kernel

/-- **C36**, as far as it holds: every call ends, whatever the source and the calls before, if nothing has panicked. -/
theorem C36_terminates (hsize : ∀ a b, 0 < size a b) {ops : List ROp} (h : NoPanic (chunked size opts src ops)) (op : ROp) :
    (op.run (ownedDrive size opts) (chunkedAfter size opts src ops)).1 ≠ .diverge := by
  have h1 := Chunk.ownedLoop_ends (opts := opts) hsize
    ((chunkedAfter size opts src ops).reader.src.1.source.reads + 3) _ _ [] (Chunk.between_sound (C36_states h)) (.inr (by omega))
  intro hdiv
  rcases op_result (drive := ownedDrive size opts) op (chunkedAfter size opts src ops) with h2 | h2
  · rw [hdiv] at h2; cases h2
  · rw [hdiv] at h2
    exact h1 h2.symm

/-- **C36**, while reading does not fail: what was read, the rest of the chunk, and what the source still has are all the
bytes of the source. -/
theorem C36_conserved_partial {ow : Owned} {sc : Scanner} (h : Between false size opts src ow sc) :
    ∃ p, bytesOf src = p ++ ow.head.drop sc.offset ++ bytesOf ow.source := Chunk.between_conserved h

/-- **C36**, while reading does not fail: when the stream has ended, all of the source has been read. Missing: failures of
reading, after which it is false (`C36_false`). -/
theorem C36_end_partial (hsize : ∀ a b, 0 < size a b) {text : Str} {ow : Owned} {sc : Scanner}
    (h : Between false size opts [(text, none)] ow sc) (hd : sc.state = .Done) :
    ow.head.drop sc.offset = [] ∧ bytesOf ow.source = [] := by
  obtain ⟨h1, h2⟩ := (Chunk.between_sound h).done hd
  exact ⟨h2, (Chunk.between_feeds hsize h).2 h1⟩

example : (chunkedAfter (fun _ _ => 4) {} [(bytes! "- ab c: d", none)] (List.replicate 12 .pop)).reader.src.2.state = .Done ∧
    AllOk (chunked (fun _ _ => 4) {} [(bytes! "- ab c: d", none)] (List.replicate 12 .pop)) :=
  ⟨by decide +kernel, allOk_of_decide (by decide +kernel)⟩

/-- The scalars a history handed out. -/
def scalarsHanded (h : List (ROp × Out ReaderError (Option TokenEntry))) : List Str :=
  (handed h).filterMap fun e => match e.wrap with
    | .Token (.Scalar v _) => some v
    | _ => none

/-- **C36** is false after a failure of reading: the text that came before it is dropped, and if the calls go on so does the
reader, to an ordinary end of the stream. In the first source there is an I/O error after `a`; the second text is in
chunks that end inside a character. -/
theorem C36_false : ∃ e : IoError,
    (chunked chunkSize {} [(bytes! "- a\n", some e), (bytes! "- b\n", none)] (List.replicate 7 .pop)).map (·.2.void) =
      [.ok (), .err (.IO e), .ok (), .ok (), .ok (), .ok (), .ok ()] ∧
    scalarsHanded (chunked chunkSize {} [(bytes! "- a\n", some e), (bytes! "- b\n", none)] (List.replicate 7 .pop)) = [bytes! "b"] ∧
    kindsHanded (chunked (fun _ _ => 8) {} [(utf8 "[a, b]\né".toList, none)] (List.replicate 5 .pop)) = [.StreamStart, .StreamEnd] :=
  ⟨⟨0, .Other 5⟩, by decide +kernel, by decide +kernel, by decide +kernel⟩

end Yary
