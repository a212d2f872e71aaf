import Verif.Proof.Sound
import Verif.Props.Complete

/-! # C52: the parser accepts exactly the token language -/

namespace Yary

open Spec

variable {σ : Type} {drive : Drive σ}

theorem Queue.pop_none_heap {q : Queue TokenEntry} (h : q.pop.1 = none) :
    q.heap = [] ∧ q.pop.2 = q := by
  unfold Queue.pop at h ⊢
  cases hp : Queue.popLeast q.heap with
  | none => exact ⟨Queue.popLeast_none hp, rfl⟩
  | some x => rw [hp] at h; simp at h

/-- A reader that has no token stays that way. -/
theorem PeekReader.peek_none_again {p q : PeekReader σ} (h : p.peek drive = (.ok none, q)) :
    q.peek drive = (.ok none, q) := by
  unfold PeekReader.peek at h
  split at h
  · simp at h
  · next hp =>
    split at h
    · split at h
      · next p' ht =>
        simp only [Prod.mk.injEq, Out.ok.injEq] at h
        obtain ⟨hn, rfl⟩ := h
        have hx : p'.reader.isExhausted = true := by
          unfold PeekReader.takeNext at ht
          simp only [hp, Option.isSome_none, Bool.false_eq_true, if_false] at ht
          by_cases hq : p.reader.queue.isEmpty = true
          · simp only [hq, if_true] at ht
            unfold Reader.scanTokens at ht
            cases hd : drive p.reader.src with
            | mk o ps =>
              obtain ⟨pushed, src⟩ := ps
              rw [hd] at ht
              cases o with
              | ok u =>
                simp only [Prod.mk.injEq, true_and] at ht
                subst ht
                simp only at hn
                obtain ⟨h1, h2⟩ := Queue.pop_none_heap hn
                simp only [Queue.isEmpty, List.isEmpty_iff] at hq
                simp [Reader.isExhausted, Queue.len, Queue.isEmpty, h1, h2, hq]
              | err => simp at ht
              | panic => simp at ht
              | diverge => simp at ht
          · simp only [hq, Bool.false_eq_true, if_false, Prod.mk.injEq, true_and] at ht
            subst ht
            simp [Queue.isEmpty, (Queue.pop_none_heap hn).1] at hq
        unfold PeekReader.peek
        simp [hn, hx]
      all_goals simp at h
    · next hx =>
      simp only [Prod.mk.injEq, true_and] at h
      subst h
      unfold PeekReader.peek
      simp_all

theorem PeekReader.peek_of_pop {p q : PeekReader σ} {e : TokenEntry}
    (h : p.pop drive = (.ok (some e), q)) :
    ∃ q', p.peek drive = (.ok (some e), q') ∧ q = { q' with peeked := none } := by
  unfold PeekReader.pop at h
  unfold PeekReader.peek
  split at h
  · next hp =>
    simp only [Prod.mk.injEq, Out.ok.injEq, Option.some.injEq] at h
    obtain ⟨rfl, rfl⟩ := h
    exact ⟨p, rfl, rfl⟩
  · split at h
    · next hx =>
      split at h
      · next p' ht =>
        simp only [Prod.mk.injEq, Out.ok.injEq] at h
        obtain ⟨hn, rfl⟩ := h
        exact ⟨p', by rw [if_pos hx]; simp [hn], rfl⟩
      all_goals simp at h
    · simp at h

/-- The tokens taken from a reader were its next ones. -/
theorem Spec.Pops.ahead {p q : PeekReader σ} {ts : List TokenEntry} (h : Pops drive p ts q) :
    Ahead drive p ts := by
  induction h with
  | nil => trivial
  | @peek p q p' r ts h _ ih =>
    cases ts with
    | nil => trivial
    | cons t ts =>
      obtain ⟨q', h1, h2⟩ := ih
      cases r with
      | none => rw [PeekReader.peek_none_again h] at h1; simp at h1
      | some e =>
        rw [PeekReader.peek_of_peeked (PeekReader.peek_peeked h)] at h1
        simp only [Prod.mk.injEq, Out.ok.injEq, Option.some.injEq] at h1
        obtain ⟨rfl, rfl⟩ := h1
        exact ⟨_, h, h2⟩
  | pop h _ ih =>
    obtain ⟨q', h1, rfl⟩ := PeekReader.peek_of_pop h
    exact ⟨q', h1, ih⟩

/-! ### C52 -/

/-- **C52.** When the iterator finishes after handing out events only, the tokens it took from its
source are a stream of documents of the token language, and the events are those the language gives
that stream. Whatever the source does. -/
theorem C52_parser_sound {src : σ} {es : List Event} {s : PS σ}
    (h : Yields drive (start src) es s) (hf : Finished drive s) :
    ∃ toks, Pops drive (PeekReader.new src) toks s.tokens ∧
      TStream (toks.map TokenEntry.wrap) (es.map fun e => e.data) := by
  obtain ⟨fuel, s', hf⟩ := hf
  have hd := (next_none (Parser.nextEvent_next hf)).1
  obtain ⟨ts, h1, h2⟩ := Sound.yields_so h (Parser.new_first src)
    ⟨bytes! "!", by simp [start, Parser.new, Directives.default, defaultTags]⟩ hd
  refine ⟨ts, h1, ?_⟩
  simp only [Sound.Todo, start, Parser.new, Bool.false_eq_true, if_false] at h2
  obtain ⟨u, v, us, fs, hk, ⟨rfl, rfl⟩, h3, h4⟩ := h2
  rw [List.append_nil] at h3 h4
  subst h3 h4
  exact hk

/-- **C52**, both directions (with C38): a source is read to its end without an error, as the
events `vs`, exactly when its next tokens are a stream of documents that means `vs`. -/
theorem C52_parser_accepts (src : σ) (vs : List EventData) :
    (∃ es s, Yields drive (start src) es s ∧ Finished drive s ∧ es.map (fun e => e.data) = vs) ↔
      ∃ toks, Ahead drive (PeekReader.new src) toks ∧ TStream (toks.map TokenEntry.wrap) vs := by
  constructor
  · rintro ⟨es, s, hy, hf, rfl⟩
    obtain ⟨toks, h1, h2⟩ := C52_parser_sound hy hf
    exact ⟨toks, h1.ahead, h2⟩
  · rintro ⟨toks, h1, h2⟩
    exact C38_parser_complete h1 h2

/-- **C52**, for the caller: a source none of whose first tokens make a stream never makes the
iterator finish: some call errs, panics or does not return. -/
theorem C52_parser_rejects {src : σ}
    (h : ∀ toks vs, Ahead drive (PeekReader.new src) toks → ¬ TStream (toks.map TokenEntry.wrap) vs)
    {es : List Event} {s : PS σ} (hy : Yields drive (start src) es s) : ¬ Finished drive s := by
  intro hf
  obtain ⟨toks, h1, h2⟩ := (C52_parser_accepts (drive := drive) src _).mp ⟨es, s, hy, hf, rfl⟩
  exact h toks _ h1 h2

example : Yields listDrive (start exampleTokens)
      (collect listDrive 20 20 (start exampleTokens)).1
      (collect listDrive 20 20 (start exampleTokens)).2 ∧
    Finished listDrive (collect listDrive 20 20 (start exampleTokens)).2 ∧
    (collect listDrive 20 20 (start exampleTokens)).1.length = 10 :=
  ⟨collect_yields _ _ _, finished_of 20 (by decide +kernel), by decide +kernel⟩

/-- No token at all is no stream. -/
example {toks : List TokenEntry} {vs : List EventData}
    (h : Ahead listDrive (PeekReader.new ([] : List TokenEntry)) toks) :
    ¬ TStream (toks.map TokenEntry.wrap) vs := by
  cases toks with
  | nil => intro h; cases h
  | cons t ts =>
    obtain ⟨q, h, -⟩ := h
    have := congrArg Prod.fst h
    simp [PeekReader.peek, PeekReader.new, PeekReader.takeNext, Reader.new, Queue.new, Queue.isEmpty,
      Reader.isExhausted, Reader.scanTokens, listDrive, Queue.len, Queue.pop, Queue.popLeast] at this

end Yary
