import Verif.Proof.FinalRun
import Verif.Proof.Client
import Verif.Proof.Chunk.Owned

/-! # Final errors, over histories of calls -/

namespace Yary.Final

open Spec

variable {opts : SFlags} {data : Str}

theorem fresh_alive : Alive (PeekReader.new {}) :=
  ⟨⟨(fun _ h => by cases h), [], Queue.rep_new, fun _ h => by cases h⟩, rfl, nofun, trivial⟩

/-- Nothing has ended. -/
theorem ops_dead : ∀ (ops : List ROp) {p : PeekReader Scanner}, Dead opts data p → Dead opts data (runOps (borrowDrive opts data) ops p).2 ∧
    ∀ x ∈ (runOps (borrowDrive opts data) ops p).1, (∃ e, x.2 = .ok (some e) ∧ Open e) ∨ ∃ e, x.2 = .err (.Scanner e) := by
  intro ops
  induction ops with
  | nil => exact fun h => ⟨h, fun _ h => by cases h⟩
  | cons op ops ih =>
    intro p h
    obtain ⟨h1, h2⟩ := op_dead (op := op) h
    obtain ⟨h3, h4⟩ := ih h1
    refine ⟨h3, fun x hx => ?_⟩
    rcases List.mem_cons.1 hx with rfl | hx
    · exact h2
    · exact h4 x hx

theorem ops_ended : ∀ (ops : List ROp) {p : PeekReader Scanner}, p.reader.src.state = .Done →
    (runOps (borrowDrive opts data) ops p).2.reader.src.state = .Done ∧ AllOk (runOps (borrowDrive opts data) ops p).1 := by
  intro ops
  induction ops with
  | nil => exact fun h => ⟨h, Client.allOk_nil⟩
  | cons op ops ih =>
    intro p h
    obtain ⟨h1, h2⟩ := op_ended (opts := opts) (data := data) (op := op) h
    obtain ⟨h3, h4⟩ := ih h1
    refine ⟨h3, fun x hx => ?_⟩
    rcases List.mem_cons.1 hx with rfl | hx
    · exact h2
    · exact h4 x hx

/-- Where a reader is: it goes on, it is at the end, or it failed for good. -/
theorem ops_alive : ∀ (ops : List ROp) {p : PeekReader Scanner}, Alive p →
    (Alive (runOps (borrowDrive opts data) ops p).2 ∧
      (∀ x ∈ (runOps (borrowDrive opts data) ops p).1, ∀ t, x.2 = .ok t → ∃ e, t = some e ∧ Open e) ∧
      ∀ x ∈ (runOps (borrowDrive opts data) ops p).1, ∀ e, x.2 = .err (.Scanner e) → ¬ Passing e → Dead opts data (runOps (borrowDrive opts data) ops p).2) ∨
    ((runOps (borrowDrive opts data) ops p).2.reader.src.state = .Done ∧
      ∀ x ∈ (runOps (borrowDrive opts data) ops p).1, ∀ e, x.2 = .err (.Scanner e) → Passing e) := by
  intro ops
  induction ops with
  | nil => exact fun h => .inl ⟨h, (fun _ h => by cases h), fun _ h => by cases h⟩
  | cons op ops ih =>
    intro p h
    rcases op_alive (opts := opts) (data := data) (op := op) h with ⟨h1, h2, h3⟩ | ⟨h1, h2⟩
    · by_cases hd : ∃ e, (op.run (borrowDrive opts data) p).1 = .err (.Scanner e) ∧ ¬ Passing e
      · obtain ⟨e, he, hp⟩ := hd
        obtain ⟨k1, k2⟩ := ops_dead ops (h3 e he hp)
        refine .inl ⟨k1.alive, fun x hx t ht => ?_, fun _ _ _ _ _ => k1⟩
        rcases List.mem_cons.1 hx with rfl | hx
        · exact h2 t ht
        · rcases k2 x hx with ⟨e, h4, h5⟩ | ⟨e, h4⟩
          · rw [h4] at ht; cases ht; exact ⟨e, rfl, h5⟩
          · rw [h4] at ht; cases ht
      · rcases ih h1 with ⟨k1, k2, k3⟩ | ⟨k1, k2⟩
        · refine .inl ⟨k1, fun x hx t ht => ?_, fun x hx e he hp => ?_⟩
          · rcases List.mem_cons.1 hx with rfl | hx
            · exact h2 t ht
            · exact k2 x hx t ht
          · rcases List.mem_cons.1 hx with rfl | hx
            · exact absurd ⟨e, he, hp⟩ hd
            · exact k3 x hx e he hp
        · refine .inr ⟨k1, fun x hx e he => ?_⟩
          rcases List.mem_cons.1 hx with rfl | hx
          · exact Classical.byContradiction fun hp => hd ⟨e, he, hp⟩
          · exact k2 x hx e he
    · obtain ⟨k1, k2⟩ := ops_ended (opts := opts) (data := data) ops h2
      refine .inr ⟨k1, fun x hx e he => ?_⟩
      rcases List.mem_cons.1 hx with rfl | hx
      · exact absurd he (h1 _)
      · obtain ⟨t, ht⟩ := k2 x hx
        rw [ht] at he; cases he

theorem mem_handed {rs : List (ROp × Out ReaderError (Option TokenEntry))} {e : TokenEntry} (h : e ∈ handed rs) : (.pop, .ok (some e)) ∈ rs := by
  induction rs with
  | nil => cases h
  | cons x rs ih =>
    obtain ⟨op, o⟩ := x
    have : (op = .pop ∧ o = .ok (some e)) ∨ e ∈ handed rs := by
      rcases op with _ | _ <;> rcases o with (_ | t) | _ | _ | _ <;> simp only [handed, List.mem_cons] at h <;> try exact .inr h
      rcases h with rfl | h
      · exact .inl ⟨rfl, rfl⟩
      · exact .inr h
    rcases this with ⟨rfl, rfl⟩ | h
    · exact List.mem_cons_self
    · exact List.mem_cons_of_mem _ (ih h)

/-- A stream of events which failed for good. -/
structure Lost (opts : SFlags) (data : Str) (s : PS Scanner) : Prop where
  dead : Dead opts data s.tokens
  open_ : s.parser.done = false

/-- A stream of events in which nothing failed for good. -/
def Live (s : PS Scanner) : Prop := s.parser.done = true ∨ Alive s.tokens ∨ s.tokens.reader.src.state = .Done

theorem closes_false {rs : List (ROp × Out ReaderError (Option TokenEntry))} {a b : Bool} (h : Client.Closes a b rs) (ha : a = false)
    (hr : ∀ x ∈ rs, ∀ t, x.2 = .ok t → ∃ e, t = some e ∧ Open e) : b = false := by
  rcases h with h | ⟨-, e, h1, h2⟩
  · rw [h, ha]
  · obtain ⟨e', h3, h4⟩ := hr _ (mem_handed h1) _ rfl
    cases h3
    exact absurd h2 h4

theorem call_lost {fuel : Nat} {s s' : PS Scanner} {o : Out ParseError (Option Event)} (h : Lost opts data s)
    (hc : Parser.nextEvent (borrowDrive opts data) fuel s = (o, s')) :
    Lost opts data s' ∧ o ≠ .ok none ∧ ∀ e, o = .ok (some e) → e.data ≠ .StreamEnd := by
  obtain ⟨ops, h1, -, h3⟩ := Client.nextEvent (drive := borrowDrive opts data) fuel s
  rw [hc] at h1 h3
  dsimp only at h1 h3
  obtain ⟨k1, k2⟩ := ops_dead ops h.dead
  have hd : s'.parser.done = false := closes_false h3 h.open_ fun x hx t ht => by
    rcases k2 x hx with ⟨e, h4, h5⟩ | ⟨e, h4⟩
    · rw [h4] at ht; cases ht; exact ⟨e, rfl, h5⟩
    · rw [h4] at ht; cases ht
  refine ⟨⟨by rw [h1]; exact k1, hd⟩, ?_, ?_⟩
  · rintro rfl
    obtain ⟨h4, -⟩ := next_none (Parser.nextEvent_next hc)
    rw [h.open_] at h4
    cases h4
  · rintro e rfl he
    have := (next_done (Parser.nextEvent_next hc)).2.2 he
    rw [hd] at this
    cases this

theorem call_live {fuel : Nat} {s s' : PS Scanner} {o : Out ParseError (Option Event)} (h : Live s) (hd : o ≠ .diverge)
    (hc : Parser.nextEvent (borrowDrive opts data) fuel s = (o, s')) :
    (Live s' ∧ ∀ e, o = .err (.Scanner e) → Passing e) ∨ Lost opts data s' := by
  by_cases hs : s.parser.done = true
  · cases fuel with
    | zero => cases hc; exact absurd rfl hd
    | succ fuel =>
      rw [Parser.nextEvent_of_done hs] at hc
      cases hc
      exact .inl ⟨.inl hs, nofun⟩
  · have hs' : s.parser.done = false := by simpa using hs
    obtain ⟨ops, h1, h2, h3⟩ := Client.nextEvent (drive := borrowDrive opts data) fuel s
    rw [hc] at h1 h2 h3
    dsimp only at h1 h2 h3
    generalize hrs : (runOps (borrowDrive opts data) ops s.tokens).1 = rs at h2 h3
    have hsrc : ∀ e, o = .err (.Scanner e) → ∃ op, (op, .err (.Scanner e)) ∈ rs := by
      intro e he
      cases h2 with
      | own he' _ => cases he; cases he'
      | @raised e' _ op _ =>
        cases e' with
        | Scanner _ => cases he; exact ⟨op, by simp⟩
        | _ => cases he
      | _ => cases he
    rcases h with h | h | h
    · exact absurd h hs
    · rcases ops_alive (opts := opts) (data := data) ops h with ⟨k1, k2, k3⟩ | ⟨k1, k2⟩
      · rw [hrs] at k2 k3
        by_cases hf : ∃ e, o = .err (.Scanner e) ∧ ¬ Passing e
        · obtain ⟨e, he, hp⟩ := hf
          obtain ⟨op, hm⟩ := hsrc e he
          exact .inr ⟨by rw [h1]; exact k3 _ hm e rfl hp, closes_false h3 hs' k2⟩
        · exact .inl ⟨.inr (.inl (by rw [h1]; exact k1)), fun e he => Classical.byContradiction fun hp => hf ⟨e, he, hp⟩⟩
      · rw [hrs] at k2
        refine .inl ⟨.inr (.inr (by rw [h1]; exact k1)), fun e he => ?_⟩
        obtain ⟨op, hm⟩ := hsrc e he
        exact k2 _ hm e rfl
    · obtain ⟨k1, k2⟩ := ops_ended (opts := opts) (data := data) ops h
      rw [hrs] at k2
      refine .inl ⟨.inr (.inr (by rw [h1]; exact k1)), fun e he => ?_⟩
      obtain ⟨op, hm⟩ := hsrc e he
      obtain ⟨t, ht⟩ := k2 _ hm
      cases ht

theorem calls_lost {s s' : PS Scanner} {os : List (Out ParseError (Option Event))} (hc : Calls (borrowDrive opts data) s os s')
    (h : Lost opts data s) : ∀ o ∈ os, o ≠ .ok none ∧ ∀ e, o = .ok (some e) → e.data ≠ .StreamEnd := by
  induction hc with
  | nil => exact fun _ h => by cases h
  | cons fuel hn hd _ ih =>
    obtain ⟨h1, h2⟩ := call_lost h hn
    intro o ho
    rcases List.mem_cons.1 ho with rfl | ho
    · exact h2
    · exact ih h1 o ho

theorem calls_live {s s' : PS Scanner} {a b : List (Out ParseError (Option Event))} {e : ScanError}
    (hc : Calls (borrowDrive opts data) s (a ++ .err (.Scanner e) :: b) s') (hp : ¬ Passing e) (h : Live s) :
    ∀ o ∈ b, o ≠ .ok none ∧ ∀ e, o = .ok (some e) → e.data ≠ .StreamEnd := by
  induction a generalizing s with
  | nil =>
    cases hc with
    | cons fuel hn hd t =>
      rcases call_live h hd hn with ⟨-, h1⟩ | h1
      · exact absurd (h1 e rfl) hp
      · exact calls_lost t h1
  | cons x a ih =>
    cases hc with
    | cons fuel hn hd t =>
      rcases call_live h hd hn with ⟨h1, -⟩ | h1
      · exact ih t h1
      · exact fun o ho => calls_lost t h1 o (by simp [ho])

theorem op_calm {op : ROp} {p : PeekReader Scanner} : (op.run (borrowDrive opts data) p).1 ≠ .err (.Scanner .Extend) := by
  intro h
  rcases op_cases (drive := borrowDrive opts data) op p with ⟨e, q, h1, h2, -⟩ | ⟨-, -, h1⟩ | ⟨-, -, q, h1, -⟩ | ⟨-, -, b, s', q, -, h2, -⟩ | ⟨-, -, o, b, s', q, h1, -, -, h4, -⟩
  · rw [h2] at h; cases h
  · rw [h1] at h; cases h
  · rw [h1] at h; cases h
  · rw [h2] at h; cases h
  · rw [(h4 _).1 h] at h1
    unfold borrowDrive at h1
    have : (scanTokens { opts with extendable := false } data p.reader.src).1 ≠ .err .Extend := Chunk.scanLoop_calm rfl _ _ _
    generalize scanTokens { opts with extendable := false } data p.reader.src = r at h1 this
    obtain ⟨x, sc, out⟩ := r
    cases x with
    | err e => cases h1; exact this rfl
    | _ => cases h1

theorem ops_calm : ∀ (ops : List ROp) {p : PeekReader Scanner}, ∀ x ∈ (runOps (borrowDrive opts data) ops p).1, x.2 ≠ .err (.Scanner .Extend) := by
  intro ops
  induction ops with
  | nil => exact fun _ h => by cases h
  | cons op ops ih =>
    intro p x hx
    rcases List.mem_cons.1 hx with rfl | hx
    · exact op_calm
    · exact ih x hx

/-- No call asks for more input. -/
theorem calls_calm {s s' : PS Scanner} {os : List (Out ParseError (Option Event))} (hc : Calls (borrowDrive opts data) s os s') :
    ∀ o ∈ os, o ≠ .err (.Scanner .Extend) := by
  induction hc with
  | nil => exact fun _ h => by cases h
  | @cons s _ _ o _ fuel hn hd _ ih =>
    intro x hx
    rcases List.mem_cons.1 hx with rfl | hx
    · intro he
      obtain ⟨ops, -, h2, -⟩ := Client.nextEvent (drive := borrowDrive opts data) fuel s
      have hcalm := @ops_calm opts data ops s.tokens
      rw [hn] at h2
      dsimp only at h2
      generalize (runOps (borrowDrive opts data) ops s.tokens).1 = rs at h2 hcalm
      cases h2 with
      | own he' _ => cases he; cases he'
      | @raised e' _ op _ =>
        cases e' with
        | Scanner _ => cases he; exact hcalm (op, _) (by simp) rfl
        | _ => cases he
      | _ => cases he
    · exact ih x hx

end Yary.Final
