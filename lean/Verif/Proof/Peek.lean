import Verif.Model.Parser
import Verif.Proof.Wp

/-! Facts about `PeekReader` and rules for the parser's token macros. -/

namespace Yary

variable {σ : Type} {drive : Drive σ}

namespace PeekReader

/-- What a successful peek returns is what is peeked afterwards. -/
theorem peek_peeked {p p' : PeekReader σ} {e : Option TokenEntry}
    (h : p.peek drive = (.ok e, p')) : p'.peeked = e := by
  unfold peek at h
  split at h
  · simp only [Prod.mk.injEq, Out.ok.injEq] at h
    obtain ⟨rfl, rfl⟩ := h
    assumption
  · split at h
    · split at h <;> simp at h
      obtain ⟨rfl, rfl⟩ := h
      rfl
    · simp only [Prod.mk.injEq, Out.ok.injEq] at h
      obtain ⟨rfl, rfl⟩ := h
      assumption

/-- Popping something already peeked returns it and touches nothing else. -/
theorem pop_of_peeked {p : PeekReader σ} {e : TokenEntry} (h : p.peeked = some e) :
    p.pop drive = (.ok (some e), { p with peeked := none }) := by
  unfold pop
  simp [h]

theorem peek_of_peeked {p : PeekReader σ} {e : TokenEntry} (h : p.peeked = some e) :
    p.peek drive = (.ok (some e), p) := by
  unfold peek
  simp [h]

theorem scanTokens_panic {r : Reader σ} (h : (r.scanTokens drive).1 = .panic) :
    (drive r.src).1 = .panic := by
  unfold Reader.scanTokens at h
  split at h
  · simp at h
  · next he => simpa [he] using h

theorem takeNext_panic {p : PeekReader σ} (h : (p.takeNext drive).1 = .panic) :
    ∃ s, (drive s).1 = .panic := by
  unfold takeNext at h
  split at h
  · simp at h
  · by_cases hq : p.reader.queue.isEmpty
    · simp only [hq, if_true] at h
      refine ⟨p.reader.src, scanTokens_panic ?_⟩
      cases hs : (p.reader.scanTokens drive).1 <;> simp_all
    · simp [hq] at h

theorem peek_panic {p : PeekReader σ} (h : (p.peek drive).1 = .panic) :
    ∃ s, (drive s).1 = .panic := by
  unfold peek at h
  split at h
  · simp at h
  · split at h
    · split at h
      · simp at h
      · simp at h
      · next he => exact takeNext_panic (by rw [he])
      · simp at h
    · simp at h

theorem pop_panic {p : PeekReader σ} (h : (p.pop drive).1 = .panic) :
    ∃ s, (drive s).1 = .panic := by
  unfold pop at h
  split at h
  · simp at h
  · split at h
    · split at h
      · simp at h
      · simp at h
      · next he => exact takeNext_panic (by rw [he])
      · simp at h
    · simp at h

end PeekReader

variable {pan : Prop} {s : PS σ}

/-- The source may only panic if panics are acceptable. -/
def SrcOk (pan : Prop) (drive : Drive σ) : Prop := (∃ st, (drive st).1 = .panic) → pan

open PM

theorem wp_peekMaybe {Q : Option TokenEntry → PS σ → Prop} (hs : SrcOk pan drive)
    (h : ∀ e t, s.tokens.peek drive = (.ok e, t) → Q e { s with tokens := t }) :
    wp pan (peekMaybe drive) s Q := by
  unfold wp peekMaybe onTokens
  cases hp : s.tokens.peek drive with
  | mk o t =>
    cases o with
    | ok e => exact h e t hp
    | err e => trivial
    | diverge => trivial
    | panic => exact hs (PeekReader.peek_panic (p := s.tokens) (by rw [hp]))

theorem wp_peek {Q : TokenEntry → PS σ → Prop} (hs : SrcOk pan drive)
    (h : ∀ e t, s.tokens.peek drive = (.ok (some e), t) → Q e { s with tokens := t }) :
    wp pan (peek drive) s Q := by
  unfold PM.peek
  rw [wp_bind]
  refine wp_peekMaybe hs ?_
  intro e t he
  cases e with
  | none => simp
  | some e => simpa using h e t he

theorem wp_pop {Q : TokenEntry → PS σ → Prop} (hs : SrcOk pan drive)
    (h : ∀ e t, s.tokens.pop drive = (.ok (some e), t) → Q e { s with tokens := t }) :
    wp pan (pop drive) s Q := by
  unfold PM.pop
  rw [wp_bind]
  unfold wp onTokens
  cases hp : s.tokens.pop drive with
  | mk o t =>
    cases o with
    | ok e =>
      cases e with
      | none => simp [SO.fail]
      | some e => simpa [pure, SO.pure] using h e t hp
    | err e => trivial
    | diverge => trivial
    | panic => exact hs (PeekReader.pop_panic (p := s.tokens) (by rw [hp]))

/-- Pop of an entry already peeked. -/
theorem wp_pop_peeked {Q : TokenEntry → PS σ → Prop} {e : TokenEntry}
    (hp : s.tokens.peeked = some e)
    (h : Q e { s with tokens := { s.tokens with peeked := none } }) :
    wp pan (pop drive) s Q := by
  unfold PM.pop
  rw [wp_bind]
  unfold wp onTokens
  rw [PeekReader.pop_of_peeked hp]
  simpa [pure, SO.pure] using h

@[simp] theorem wp_setTop {Q : Unit → PS σ → Prop} {st : State} :
    wp pan (setTop st) s Q ↔
      Q () { s with parser := { s.parser with state := s.parser.state.setTop st } } := Iff.rfl
@[simp] theorem wp_pushState {Q : Unit → PS σ → Prop} {st : State} :
    wp pan (pushState st) s Q ↔
      Q () { s with parser := { s.parser with state := s.parser.state.push st } } := Iff.rfl
@[simp] theorem wp_popState {Q : Unit → PS σ → Prop} :
    wp pan popState s Q ↔
      Q () { s with parser := { s.parser with state := s.parser.state.pop } } := Iff.rfl

end Yary
