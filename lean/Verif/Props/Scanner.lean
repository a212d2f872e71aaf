import Verif.Proof.Scan.Order
import Verif.Spec.Tokens
import Verif.Spec.Text

/-! # Scanning any text: termination, the end of the stream, panics

A consumer reads the tokens of a text with peeks and pops, in any order and going on after errors.
Texts are lists of characters; the scanner sees their UTF-8 encoding. -/

namespace Yary

open Spec
open Closed (Safe Finished)

variable {opts : SFlags} {text : List Char} {ops : List ROp}

/-- What a drive keeps. -/
theorem midway_drive (s : Scanner) (D : List TokenEntry) (o : Out ReaderError Unit) (b : List TokenEntry)
    (s' : Scanner) (hJ : Midway (utf8 text) Running Ended s D)
    (hd : borrowDrive opts (utf8 text) s = (o, b, s')) (hK : o ≠ .panic) :
    Midway (utf8 text) Running Ended s' (D ++ deliver b) :=
  (borrow_keeps closed_running static_running running_next running_last
    (.inl trivial) ((validUtf8_iff _).2 ⟨text, rfl⟩) hJ hd).2.2 hK

/-- What is known after any history without a panic. -/
theorem kept_after (h : NoPanic (history opts text ops)) :
    Kept (Midway (utf8 text) Running Ended) (readerAfter opts text ops) (handed (history opts text ops)) :=
  reader_kept (J := Midway (utf8 text) Running Ended) (drive := borrowDrive opts (utf8 text)) (K := fun o => o ≠ .panic) (src := {})
    midway_drive
    (midway_start (running_start text)) ops (fun x hx hp => h x hx (void_eq_panic.1 hp))

/-! ### C34 -/

/-- **C34**, termination: after any history without a panic (errors included), the next call
terminates. -/
theorem C34_terminates (h : NoPanic (history opts text ops)) (op : ROp) :
    (op.run (borrowDrive opts (utf8 text)) (readerAfter opts text ops)).1 ≠ .diverge := by
  have hd := (borrow_keeps (P := True) (opts := opts) closed_running static_running
    running_next running_last (.inl trivial) ((validUtf8_iff _).2 ⟨text, rfl⟩) (kept_after h).2 rfl).2.1
  intro hdiv
  rcases op_result (drive := borrowDrive opts (utf8 text)) op (readerAfter opts text ops) with h1 | h1
  · rw [hdiv] at h1; cases h1
  · rw [hdiv] at h1; exact hd h1.symm

theorem noPanic_of_decide {h : List (ROp × Out ReaderError (Option TokenEntry))}
    (hd : (h.all fun x => !(x.2 == .panic)) = true) : NoPanic h := by
  intro x hx
  have := List.all_eq_true.1 hd x hx
  simpa using this

example : NoPanic (history {} "a: [b, \"c\\n\"]\n] # x".toList [.pop, .peek, .pop, .pop, .pop, .pop, .pop, .pop,
    .pop, .pop, .pop, .pop, .pop, .pop, .pop]) := noPanic_of_decide (by decide +kernel)

/-- The end is last among all tokens produced, handed out or not. -/
theorem ended_split {D a c : List TokenEntry} {x : TokenEntry} {sc : Scanner} (h : Ended D sc)
    (hD : D = a ++ x :: c) (hx : x.marker = .StreamEnd) : c = [] ∧ ∀ y ∈ a, y.marker ≠ .StreamEnd := by
  obtain ⟨l, e, rfl, -, hl⟩ := h
  rcases List.eq_nil_or_concat c with rfl | ⟨c', y, rfl⟩ <;> try rw [List.concat_eq_append] at *
  · have := List.append_inj_left' hD rfl
    subst this
    exact ⟨rfl, hl⟩
  · rw [← List.cons_append, ← List.append_assoc] at hD
    have := List.append_inj_left' hD rfl
    subst this
    exact absurd hx (hl x (by simp))

theorem kinds_split {h : List (ROp × Out ReaderError (Option TokenEntry))} {pre post : List Marker}
    {m : Marker} (he : kindsHanded h = pre ++ m :: post) :
    ∃ a x b, handed h = a ++ x :: b ∧ a.map TokenEntry.marker = pre ∧ x.marker = m ∧
      b.map TokenEntry.marker = post := by
  obtain ⟨a, b, h1, h2, h3⟩ := List.map_eq_append_iff.1 he
  obtain ⟨x, b', h4, h5, h6⟩ := List.map_eq_cons_iff.1 h3
  exact ⟨a, x, b', by rw [h1, h4], h2, h5, h6⟩

/-- **C34**, end: the stream end token, if it was handed out, is the last token handed out, and it
was handed out once. -/
theorem C34_end_is_last (h : NoPanic (history opts text ops)) {pre post : List Marker}
    (he : kindsHanded (history opts text ops) = pre ++ .StreamEnd :: post) :
    post = [] ∧ .StreamEnd ∉ pre := by
  obtain ⟨a, x, b, h1, h2, h3, h4⟩ := kinds_split he
  obtain ⟨-, -, ⟨-, -, hn⟩ | ⟨-, hD⟩⟩ := kept_after h
  · exact absurd h3 (hn.2 x (by simp [h1]))
  · obtain ⟨h5, h6⟩ := ended_split hD (a := a) (x := x) (by rw [h1]; simp; rfl) h3
    have hb := (List.append_eq_nil_iff.1 h5).1
    subst hb
    refine ⟨h4.symm, ?_⟩
    rw [← h2]
    intro hm
    obtain ⟨y, hy, hy'⟩ := List.mem_map.1 hm
    exact h6 y hy hy'

/-- **C34**, after the end: once the stream end token was handed out, every call says that there is
no token, and never fails. -/
theorem C34_nothing_after_end (h : NoPanic (history opts text ops))
    (he : .StreamEnd ∈ kindsHanded (history opts text ops)) (op : ROp) :
    (op.run (borrowDrive opts (utf8 text)) (readerAfter opts text ops)).1 = .ok none := by
  obtain ⟨pre, post, he⟩ := List.append_of_mem he
  obtain ⟨a, x, b, h1, h2, h3, h4⟩ := kinds_split he
  have hk := kept_after h
  have hpop : ((readerAfter opts text ops).pop (borrowDrive opts (utf8 text))).1 = .ok none := by
    have hr := op_result (drive := borrowDrive opts (utf8 text)) .pop (readerAfter opts text ops)
    have hs : (readerAfter opts text ops).reader.src.state = .Done := by
      obtain ⟨-, -, ⟨-, -, hn⟩ | ⟨hs, -⟩⟩ := hk
      · exact absurd h3 (hn.2 x (by simp [h1]))
      · exact hs
    rw [borrow_done hs, or_self] at hr
    simp only [ROp.run] at hr
    have hk' := kept_pop (K := fun o => o ≠ .panic) midway_drive hk (by rw [hr]; simp)
    generalize (readerAfter opts text ops).pop (borrowDrive opts (utf8 text)) = q at hr hk'
    obtain ⟨o, q⟩ := q
    cases o with
    | ok r =>
      cases r with
      | none => rfl
      | some y =>
        obtain ⟨-, -, ⟨-, -, hn⟩ | ⟨-, hD⟩⟩ := hk'
        · exact absurd h3 (hn.2 x (by simp [h1]))
        · have := (ended_split hD (a := a) (x := x) (by rw [h1]; simp [handed]; rfl) h3).1
          simp at this
    | _ => simp [Out.void] at hr
  cases op with
  | pop => exact hpop
  | peek => exact (C08_peek_is_pop _).1.trans hpop

example : .StreamEnd ∈ kindsHanded (history {} "a: [b]\n".toList (List.replicate 12 .pop)) := by
  decide +kernel

/-- A drive before the end gives tokens and leaves less to do. -/
theorem drive_progress {sc sc' : Scanner} {D b : List TokenEntry}
    (hJ : Midway (utf8 text) Running Ended sc D) (hs : sc.state ≠ .Done)
    (hd : borrowDrive opts (utf8 text) sc = (.ok (), b, sc')) :
    b ≠ [] ∧ sc'.left (utf8 text) < sc.left (utf8 text) := by
  have hv : validUtf8 (utf8 text) = true := (validUtf8_iff _).2 ⟨text, rfl⟩
  obtain ⟨hb, ⟨-, hI⟩ | ⟨hs', -⟩⟩ := hJ
  · have h := scanTokens_ends (P := True) (opts := { opts with extendable := false }) (closed_running D)
      (Static.noOffset (static_running D) (closed_running D)) (.inl trivial) hv hb hI hs
    unfold borrowDrive at hd
    generalize scanTokens { opts with extendable := false } (utf8 text) sc = r at hd h
    obtain ⟨o', sc1, out1⟩ := r
    cases o' with
    | ok u =>
      simp only [Prod.mk.injEq] at hd
      obtain ⟨-, rfl, rfl⟩ := hd
      obtain ⟨hb', ⟨h1, h2, h3, h4, h5⟩ | h1⟩ := h
      · exact ⟨h3, h5.resolve_right fun h => h3 h.2⟩
      · generalize hx : (⟨sc1, (utf8 text).drop sc1.offset, out1⟩ : SS) = x at h1
        obtain @⟨s, h1, h2, h3, h4, h5⟩ := h1
        simp only [SS.put, SS.mk.injEq] at hx
        obtain ⟨rfl, hbuf, rfl⟩ := hx
        refine ⟨by simp, ?_⟩
        unfold Scanner.left
        simp only [hs, ↓reduceIte, reduceCtorEq] at hbuf ⊢
        rw [hbuf, h3]
        simp only [List.length_nil]
        split <;> omega
    | err e => simp at hd
    | panic => simp at hd
    | diverge => simp at hd
  · exact absurd hs' hs

theorem end_reached : ∀ m q (p : PeekReader Scanner) out,
    Kept (Midway (utf8 text) Running Ended) p out →
    (p.reader.exhausted = true → p.reader.src.state = .Done) →
    p.reader.src.left (utf8 text) < m → (waiting p).length < q →
    ∃ N, ∀ n ≥ N, AllOk (runOps (borrowDrive opts (utf8 text)) (List.replicate n .pop) p).1 →
      ∃ e ∈ out ++ handed (runOps (borrowDrive opts (utf8 text)) (List.replicate n .pop) p).1,
        e.marker = .StreamEnd := by
  intro m
  induction m with
  | zero => intro q p out _ _ h; omega
  | succ m ihm =>
    intro q
    induction q with
    | zero => intro p out _ _ _ h; omega
    | succ q ihq =>
      intro p out hK hx hm hq
      have hnow : waiting p = [] → p.reader.src.state = .Done → ∃ e ∈ out, e.marker = .StreamEnd := by
        intro hw hs
        obtain ⟨-, -, ⟨h, -⟩ | ⟨-, l, e, hD, he, -⟩⟩ := hK
        · exact absurd hs h
        · rw [List.append_assoc] at hD
          change out ++ waiting p = _ at hD
          rw [hw, List.append_nil] at hD
          exact ⟨e, by simp [hD], he⟩
      by_cases hend : ∃ e ∈ out, e.marker = .StreamEnd
      · obtain ⟨e, he, hm⟩ := hend
        exact ⟨0, fun n _ _ => ⟨e, by simp [he], hm⟩⟩
      · cases hp : p.pop (borrowDrive opts (utf8 text)) with
        | mk o p' =>
        cases o with
        | ok r =>
          have hK' := kept_pop (K := fun o => o ≠ .panic) midway_drive hK (by rw [hp]; simp [Out.void])
          rw [hp] at hK'
          simp only at hK'
          have hrec : ∃ N, ∀ n ≥ N, AllOk (runOps (borrowDrive opts (utf8 text)) (List.replicate n .pop) p').1 →
            ∃ e ∈ (out ++ handed [(ROp.pop, Out.ok r)]) ++ handed (runOps (borrowDrive opts (utf8 text))
              (List.replicate n .pop) p').1, e.marker = .StreamEnd := by
            rcases pop_cases hp with ⟨e, rfl, h1, h2, h3⟩ | ⟨h1, b, h2, h3⟩ | ⟨h1, h2⟩
            · exact ihq p' _ hK' (by rw [h2, h1]; exact hx) (by rw [h1]; exact hm) (by
                rw [h3] at hq
                simp only [List.length_cons] at hq
                omega)
            · have hs : p.reader.src.state ≠ .Done := fun hs => hend (hnow h1 hs)
              have hd := drive_progress hK.2 hs h2
              exact ihm ((waiting p').length + 1) p' _ hK' (by
                rw [h3]
                intro h
                exact absurd (List.isEmpty_iff.1 h) hd.1) (by omega) (by omega)
            · simp only [Reader.isExhausted, Bool.and_eq_true] at h2
              exact absurd (hnow h1 (hx h2.1)) hend
          obtain ⟨N, hN⟩ := hrec
          refine ⟨N + 1, ?_⟩
          intro n hn hok
          obtain ⟨n, rfl⟩ : ∃ k, n = k + 1 := ⟨n - 1, by omega⟩
          have hc : (runOps (borrowDrive opts (utf8 text)) (List.replicate (n + 1) .pop) p).1 =
              (.pop, .ok r) :: (runOps (borrowDrive opts (utf8 text)) (List.replicate n .pop) p').1 := by
            simp [List.replicate_succ, runOps, ROp.run, hp]
          rw [hc] at hok ⊢
          obtain ⟨e, he, hm⟩ := hN n (by omega) fun x hx => hok x (by simp [hx])
          refine ⟨e, ?_, hm⟩
          rw [handed_cons]
          rwa [List.append_assoc] at he
        | _ =>
          refine ⟨1, fun n hn hok => ?_⟩
          obtain ⟨n, rfl⟩ : ∃ k, n = k + 1 := ⟨n - 1, by omega⟩
          rw [List.replicate_succ] at hok
          obtain ⟨r, hr⟩ := hok (.pop, (p.pop (borrowDrive opts (utf8 text))).1) (by simp [runOps, ROp.run])
          rw [hp] at hr
          cases hr

/-- **C34**, the end is reached: for every text there is a number of pops after which, unless one of
them failed, the stream end token was handed out. -/
theorem C34_end_is_reached (opts : SFlags) (text : List Char) :
    ∃ N, ∀ n ≥ N, AllOk (history opts text (List.replicate n .pop)) →
      .StreamEnd ∈ kindsHanded (history opts text (List.replicate n .pop)) := by
  obtain ⟨N, hN⟩ := end_reached (opts := opts) (text := text) _ _ freshReader []
    ⟨⟨[], Queue.rep_new⟩, midway_start (running_start text)⟩ (by intro h; cases h)
    (Nat.lt_succ_self _) (Nat.lt_succ_self _)
  refine ⟨N, fun n hn hok => ?_⟩
  obtain ⟨e, he, hm⟩ := hN n hn hok
  exact List.mem_map.2 ⟨e, by rw [List.nil_append] at he; exact he, hm⟩

theorem allOk_of_decide {h : List (ROp × Out ReaderError (Option TokenEntry))}
    (hd : (h.all fun x => match x.2 with | .ok _ => true | _ => false) = true) : AllOk h := by
  intro x hx
  have := List.all_eq_true.1 hd x hx
  split at this
  · next r h => exact ⟨r, h⟩
  · cases this

example : AllOk (history {} "- a: 'b'\n- [c, {d: e}]\n".toList (List.replicate 30 .pop)) :=
  allOk_of_decide (by decide +kernel)

/-! ### C15 -/

theorem utf8_ascii : ∀ {text : List Char}, (∀ c ∈ text, c.toNat < 128) →
    utf8 text = text.map Char.toNat
  | [], _ => rfl
  | c :: text, h => by
    have ih := utf8_ascii (text := text) fun c hc => h c (by simp [hc])
    have hc : utf8Char c = [c.toNat] := by
      have := h c (by simp)
      rw [utf8Char_eq]
      have : c.val.toNat ≤ 0x7F := by change c.toNat ≤ 0x7F; omega
      rw [if_pos this]
      rfl
    simp only [utf8, List.flatMap_cons, List.map_cons] at ih ⊢
    rw [hc, ih]
    rfl

/-- **C15** as far as it holds: scanning an ASCII text never panics, whatever the calls, if every
`\\u` and `\\U` escape in it denotes a Unicode scalar value, every `%` escape an ASCII character, and
scalars are lazy or the text contains no block scalar indicator. Missing: such escapes and block
scalars; on some of them the code does panic (`C15_false`). -/
theorem C15_no_panic_partial (opts : SFlags) (text : List Char) (ops : List ROp)
    (ascii : ∀ c ∈ text, c.toNat < 128) (codes : CodesOk (utf8 text)) (percents : PercentsOk (utf8 text))
    (blocks : opts.lazy = true ∨ ('|' ∉ text ∧ '>' ∉ text)) :
    NoPanic (history opts text ops) := by
  have hu := utf8_ascii ascii
  have hmem : ∀ c : Char, c ∉ text → c.toNat ∉ utf8 text := by
    intro c hc hm
    rw [hu] at hm
    obtain ⟨d, hd, he⟩ := List.mem_map.1 hm
    have : d = c := Char.toNat_inj.1 he
    exact hc (this ▸ hd)
  have hsafe : Safe { opts with extendable := false } (utf8 text) := by
    refine ⟨?_, codes, percents, blocks.imp id fun h => ⟨hmem '|' h.1, hmem '>' h.2⟩⟩
    intro b hb
    rw [hu] at hb
    obtain ⟨c, hc, rfl⟩ := List.mem_map.1 hb
    exact ascii c hc
  intro x hx
  have := reader_reports (drive := borrowDrive opts (utf8 text)) (K := fun o => o ≠ .panic)
    (J := Midway (utf8 text) Running Ended) (src := {}) (by simp)
    (fun _ _ o _ _ hJ hd => by
      have := borrow_keeps (P := False) closed_running static_running running_next running_last
        (.inr hsafe) ((validUtf8_iff _).2 ⟨text, rfl⟩) hJ hd
      exact ⟨this.1, this.2.2 this.1⟩)
    (midway_start (running_start text)) ops x hx
  exact fun h => this (void_eq_panic.2 h)

/-- Whether an escape at the start of the text is one the scanner can decode. -/
def escapeCheck : Str → Bool
  | 0x5C :: 0x75 :: t =>
    t.length < 4 || (hexNumber (t.take 4)).all fun v => v < 0xD800 || (0xDFFF < v && v < 0x110000)
  | 0x5C :: 0x55 :: t =>
    t.length < 8 || (hexNumber (t.take 8)).all fun v => v < 0xD800 || (0xDFFF < v && v < 0x110000)
  | 0x25 :: x :: y :: _ => (hexNumber [x, y]).all fun v => v < 128
  | _ => true

/-- `CodesOk` and `PercentsOk`, suffix by suffix. -/
def escapesCheck : Str → Bool
  | [] => true
  | b :: t => escapeCheck (b :: t) && escapesCheck t

theorem escapesCheck_right : ∀ {p s : Str}, escapesCheck (p ++ s) = true → escapesCheck s = true
  | [], _, h => h
  | b :: p, s, h => by
    rw [List.cons_append, escapesCheck, Bool.and_eq_true] at h
    exact escapesCheck_right h.2

theorem codesOk_of_check {s : Str} (h : escapesCheck s = true) : CodesOk s := by
  rintro p d t v (⟨rfl, hd⟩ | ⟨rfl, hd⟩) hv
  · have := escapesCheck_right h
    simp only [escapesCheck, escapeCheck, Bool.and_eq_true, List.length_append, Bool.or_eq_true] at this
    rw [List.take_left' hd, hv] at this
    have := this.1.resolve_left (by simp; omega)
    simpa [IsScalarValue] using this
  · have := escapesCheck_right h
    simp only [escapesCheck, escapeCheck, Bool.and_eq_true, List.length_append, Bool.or_eq_true] at this
    rw [List.take_left' hd, hv] at this
    have := this.1.resolve_left (by simp; omega)
    simpa [IsScalarValue] using this

theorem percentsOk_of_check {s : Str} (h : escapesCheck s = true) : PercentsOk s := by
  rintro p a b t v rfl hv
  have := escapesCheck_right h
  simp only [escapesCheck, escapeCheck, Bool.and_eq_true] at this
  rw [hv] at this
  simpa using this.1

example (ops : List ROp) : NoPanic (history {}
    "%TAG !e! tag:x%21,2000\n--- !e!a%20b\n? [ \"\\u00e9\", 'x' ]\n: &a {}\n".toList ops) :=
  C15_no_panic_partial _ _ _ (by decide +kernel) (codesOk_of_check (by decide +kernel))
    (percentsOk_of_check (by decide +kernel)) (.inr (by decide +kernel))

/-- **C15** is false in general: there are ASCII texts on which a pop panics, one for each of the
conditions of `C15_no_panic_partial`: an escaped surrogate, a `%` escape that is no UTF-8, and block
scalars with an indentation indicator or without content. -/
theorem C15_false : ∀ text ∈ ["\"\\uD800\"", "!%C0%80 x", "a: |1\n  b\n", "a: |\nb: c\n"],
    (∀ c ∈ text.toList, c.toNat < 128) ∧
    (ROp.pop, Out.panic) ∈ history {} text.toList (List.replicate 6 .pop) := by
  decide +kernel

/-! ### C16 -/

/-- **C16** is false: a multi-byte character in a plain, single-quoted, double-quoted or block
scalar or in a comment makes a pop panic. -/
theorem C16_false : ∀ text ∈ ["é", "'é'", "\"é\"", "|\n  é\n", "# é\n"],
    (ROp.pop, Out.panic) ∈ history {} text.toList (List.replicate 3 .pop) := by
  decide +kernel

end Yary
