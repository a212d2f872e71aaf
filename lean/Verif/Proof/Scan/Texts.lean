import Verif.Proof.Scan.Loop
import Verif.Proof.Deliver

/-! # The tokens of a text -/

namespace Yary

open Spec
open Closed (Safe Progress Finished)

variable {P : Prop} {opts : SFlags} {data : Str}

/-- A property of the state that looks neither at the offset nor, except that it is a text, at the
buffer. -/
def Static (I : SS → Prop) : Prop :=
  ∀ {s} n buf, I s → validUtf8 buf = true → I ⟨{ s.sc with offset := n }, buf, s.out⟩

/-- The same, if the buffer is the rest of the text. -/
def StaticAt (data : Str) (I : SS → Prop) : Prop :=
  ∀ {s} n, I s → validUtf8 (data.drop n) = true → I ⟨{ s.sc with offset := n }, data.drop n, s.out⟩

theorem Static.noOffset {I : SS → Prop} (hS : Static I) (hC : Closed I) : NoOffset I :=
  fun {s} n h => hS n s.buf h (hC.valid h)

theorem scanTokens_ends {I : SS → Prop} (hC : Closed I) (hO : NoOffset I)
    (hP : P ∨ Safe opts data) (hv : validUtf8 data = true) {sc : Scanner}
    (hb : isBoundary data sc.offset = true) (hI : I ⟨sc, data.drop sc.offset, []⟩)
    (hs : sc.state ≠ .Done) : Ends P I data sc [] (scanTokens opts data sc) := by
  refine scanLoop_ends hC hO hP _ _ _ hb (validUtf8_drop hv hb) hI hs ?_
  unfold Scanner.left
  rw [List.length_drop]
  split
  · omega
  · omega

/-- After the end of the stream nothing happens. -/
theorem borrow_done {sc : Scanner} (h : sc.state = .Done) :
    borrowDrive opts data sc = (.ok (), [], sc) := by
  unfold borrowDrive scanTokens
  rw [scanLoop_done h]

/-- What the source of a reader of a text satisfies: `I` before and `G` after the last token. -/
def Midway (data : Str) (I : List TokenEntry → SS → Prop) (G : List TokenEntry → Scanner → Prop)
    (sc : Scanner) (D : List TokenEntry) : Prop :=
  isBoundary data sc.offset = true ∧
    ((sc.state ≠ .Done ∧ I D ⟨sc, data.drop sc.offset, []⟩) ∨ (sc.state = .Done ∧ G D sc))

/-- What the last token turns `I` into. -/
def AtEnd (I : List TokenEntry → SS → Prop) (G : List TokenEntry → Scanner → Prop) : Prop :=
  ∀ D s, I D s → s.sc.state ≠ .Done → s.buf = [] → s.sc.key = none →
    (s.sc.context.flow = 0 → s.sc.context.indents = []) →
    G (D ++ deliver (s.out ++ [⟨.Token .StreamEnd, s.sc.stats.read⟩])) { s.sc with state := .Done }

/-- What a drive over the text keeps, if it returns. -/
theorem borrow_keeps_at {I : List TokenEntry → SS → Prop} {G : List TokenEntry → Scanner → Prop}
    (hC : ∀ D, Closed (I D)) (hO : ∀ D, NoOffset (I D)) (hS : ∀ D, StaticAt data (I D))
    (hnext : ∀ D sc buf out, I D ⟨sc, buf, out⟩ → I (D ++ deliver out) ⟨sc, buf, []⟩)
    (hlast : AtEnd I G) (hP : P ∨ Safe { opts with extendable := false } data)
    (hv : validUtf8 data = true)
    {sc sc' : Scanner} {o : Out ReaderError Unit} {D out : List TokenEntry}
    (hJ : Midway data I G sc D) (hd : borrowDrive opts data sc = (o, out, sc')) :
    (o = .panic → P) ∧ o ≠ .diverge ∧ (o ≠ .panic → Midway data I G sc' (D ++ deliver out)) := by
  obtain ⟨hb, ⟨hs, hI⟩ | ⟨hs, hG⟩⟩ := hJ
  · have h := scanTokens_ends (hC D) (hO D) hP hv hb hI hs
    unfold borrowDrive at hd
    generalize scanTokens { opts with extendable := false } data sc = r at hd h
    obtain ⟨o', sc1, out1⟩ := r
    cases o' with
    | ok u =>
      simp only [Prod.mk.injEq] at hd
      obtain ⟨rfl, rfl, rfl⟩ := hd
      refine ⟨by simp, by simp, fun _ => ?_⟩
      obtain ⟨hb', ⟨h1, h2, -⟩ | h1⟩ := h
      · exact ⟨hb', .inl ⟨h2, hnext _ _ _ _ h1⟩⟩
      · refine ⟨hb', .inr ?_⟩
        generalize hx : (⟨sc1, data.drop sc1.offset, out1⟩ : SS) = x at h1
        obtain @⟨s, h1, h2, h3, h4, h5⟩ := h1
        simp only [SS.put, SS.mk.injEq] at hx
        obtain ⟨rfl, -, rfl⟩ := hx
        exact ⟨rfl, hlast _ _ h1 h2 h3 h4 h5⟩
    | err e =>
      simp only [Prod.mk.injEq] at hd
      obtain ⟨rfl, rfl, rfl⟩ := hd
      refine ⟨by simp, by simp, fun _ => ?_⟩
      obtain ⟨⟨buf, hI', -⟩, hb', hs'⟩ := h
      exact ⟨hb', .inl ⟨hs', hnext _ _ _ _
        (hS D sc1.offset hI' (validUtf8_drop hv hb'))⟩⟩
    | panic =>
      simp only [Prod.mk.injEq] at hd
      obtain ⟨rfl, -, -⟩ := hd
      exact ⟨fun _ => h, by simp, by simp⟩
    | diverge => exact h.elim
  · rw [borrow_done hs] at hd
    simp only [Prod.mk.injEq] at hd
    obtain ⟨rfl, rfl, rfl⟩ := hd
    exact ⟨by simp, by simp, fun _ => ⟨hb, .inr ⟨hs, by simpa using hG⟩⟩⟩

theorem borrow_keeps {I : List TokenEntry → SS → Prop} {G : List TokenEntry → Scanner → Prop}
    (hC : ∀ D, Closed (I D)) (hS : ∀ D, Static (I D))
    (hnext : ∀ D sc buf out, I D ⟨sc, buf, out⟩ → I (D ++ deliver out) ⟨sc, buf, []⟩)
    (hlast : AtEnd I G) (hP : P ∨ Safe { opts with extendable := false } data)
    (hv : validUtf8 data = true)
    {sc sc' : Scanner} {o : Out ReaderError Unit} {D out : List TokenEntry}
    (hJ : Midway data I G sc D) (hd : borrowDrive opts data sc = (o, out, sc')) :
    (o = .panic → P) ∧ o ≠ .diverge ∧ (o ≠ .panic → Midway data I G sc' (D ++ deliver out)) :=
  borrow_keeps_at hC (fun D => Static.noOffset (hS D) (hC D)) (fun D _ n h hv => hS D n _ h hv) hnext hlast hP hv hJ hd

theorem void_eq_panic {ε α : Type} {o : Out ε α} : o.void = .panic ↔ o = .panic := by
  cases o <;> simp [Out.void]

theorem midway_start {I : List TokenEntry → SS → Prop} {G : List TokenEntry → Scanner → Prop}
    (h0 : I [] ⟨{}, data, []⟩) : Midway data I G {} [] :=
  ⟨by simp [isBoundary], .inl ⟨by simp, by simpa using h0⟩⟩

/-- What every step keeps true of the scanner and of all its tokens is true, after any history of
calls without a panic, of a list of tokens that those handed out begin. -/
theorem text_keeps_at {I : List TokenEntry → SS → Prop} {G : List TokenEntry → Scanner → Prop}
    (hC : ∀ D, Closed (I D)) (hO : ∀ D, NoOffset (I D)) (hS : ∀ D, StaticAt data (I D))
    (hnext : ∀ D sc buf out, I D ⟨sc, buf, out⟩ → I (D ++ deliver out) ⟨sc, buf, []⟩)
    (hlast : AtEnd I G)
    (hv : validUtf8 data = true) (h0 : I [] ⟨{}, data, []⟩) (ops : List ROp)
    (hK : ∀ x ∈ (runOps (borrowDrive opts data) ops (PeekReader.new {})).1, x.2 ≠ .panic) :
    ∃ D, Midway data I G (runOps (borrowDrive opts data) ops (PeekReader.new {})).2.reader.src D ∧
      handed (runOps (borrowDrive opts data) ops (PeekReader.new {})).1 <+: D :=
  reader_keeps (drive := borrowDrive opts data) (K := fun o => o ≠ .panic)
    (J := Midway data I G) (src := {})
    (fun _ _ _ _ _ hJ hd hK => (borrow_keeps_at hC hO hS hnext hlast (.inl trivial) hv hJ hd).2.2 hK)
    (midway_start h0) ops
    (fun x hx h => hK x hx (void_eq_panic.1 h))

theorem text_keeps {I : List TokenEntry → SS → Prop} {G : List TokenEntry → Scanner → Prop}
    (hC : ∀ D, Closed (I D)) (hS : ∀ D, Static (I D))
    (hnext : ∀ D sc buf out, I D ⟨sc, buf, out⟩ → I (D ++ deliver out) ⟨sc, buf, []⟩)
    (hlast : AtEnd I G)
    (hv : validUtf8 data = true) (h0 : I [] ⟨{}, data, []⟩) (ops : List ROp)
    (hK : ∀ x ∈ (runOps (borrowDrive opts data) ops (PeekReader.new {})).1, x.2 ≠ .panic) :
    ∃ D, Midway data I G (runOps (borrowDrive opts data) ops (PeekReader.new {})).2.reader.src D ∧
      handed (runOps (borrowDrive opts data) ops (PeekReader.new {})).1 <+: D :=
  text_keeps_at hC (fun D => Static.noOffset (hS D) (hC D)) (fun D _ n h hv => hS D n _ h hv) hnext hlast hv h0 ops hK

/-- The same, for histories without errors. -/
theorem text_keeps_ok {I : List TokenEntry → SS → Prop} {G : List TokenEntry → Scanner → Prop}
    (hC : ∀ D, Closed (I D)) (hO : ∀ D, NoOffset (I D))
    (hnext : ∀ D sc buf out, I D ⟨sc, buf, out⟩ → sc.keyPossible = false →
      I (D ++ deliver out) ⟨sc, buf, []⟩)
    (hlast : AtEnd I G)
    (hv : validUtf8 data = true) (h0 : I [] ⟨{}, data, []⟩) (ops : List ROp)
    (hK : ∀ x ∈ (runOps (borrowDrive opts data) ops (PeekReader.new {})).1, ∃ r, x.2 = .ok r) :
    ∃ D, Midway data I G (runOps (borrowDrive opts data) ops (PeekReader.new {})).2.reader.src D ∧
      handed (runOps (borrowDrive opts data) ops (PeekReader.new {})).1 <+: D :=
  reader_keeps (drive := borrowDrive opts data) (K := fun o => o = .ok ())
    (J := Midway data I G) (src := {})
    (fun sc D o b s' hJ hd hK => by
      subst hK
      obtain ⟨hb, ⟨hs, hI⟩ | ⟨hs, hG⟩⟩ := hJ
      · have h := scanTokens_ends (P := True) (opts := { opts with extendable := false }) (hC D)
          (hO D) (.inl trivial) hv hb hI hs
        unfold borrowDrive at hd
        generalize scanTokens { opts with extendable := false } data sc = r at hd h
        obtain ⟨o', sc1, out1⟩ := r
        cases o' with
        | ok u =>
          simp only [Prod.mk.injEq] at hd
          obtain ⟨-, rfl, rfl⟩ := hd
          obtain ⟨hb', ⟨h1, h2, -, h3, -⟩ | h1⟩ := h
          · exact ⟨hb', .inl ⟨h2, hnext _ _ _ _ h1 h3⟩⟩
          · refine ⟨hb', .inr ?_⟩
            generalize hx : (⟨sc1, data.drop sc1.offset, out1⟩ : SS) = x at h1
            obtain @⟨s, h1, h2, h3, h4, h5⟩ := h1
            simp only [SS.put, SS.mk.injEq] at hx
            obtain ⟨rfl, -, rfl⟩ := hx
            exact ⟨rfl, hlast _ _ h1 h2 h3 h4 h5⟩
        | err e => simp at hd
        | panic => simp at hd
        | diverge => simp at hd
      · rw [borrow_done hs] at hd
        simp only [Prod.mk.injEq] at hd
        obtain ⟨-, rfl, rfl⟩ := hd
        exact ⟨hb, .inr ⟨hs, by simpa using hG⟩⟩)
    (midway_start h0) ops
    (fun x hx => by obtain ⟨r, hr⟩ := hK x hx; rw [hr]; rfl)

end Yary
