import Verif.Proof.AgainDoc
import Verif.Props.Final
import Verif.Props.Shown
import Verif.Props.Chunks
import Verif.Proof.Scan.NoPercent

/-! # C75: what stands after a document and cannot begin another stops the stream for good -/

namespace Yary

open Spec

variable {σ : Type} {drive : Drive σ} {src : σ}

namespace Again

/-- All later calls fail like this, or the token that is next is a directive. -/
theorem after_end {a b : List (Out ParseError (Option Event))} {ev : Event} {s : PS σ}
    (h : Calls drive (start src) (a ++ .ok (some ev) :: .err .MissingDocumentStart :: b) s) (hev : ev.data = .DocumentEnd true) :
    (∀ o ∈ b, o = .err .MissingDocumentStart) ∨ ∃ s', Calls drive (start src) (a ++ [.ok (some ev)]) s' ∧
      ∃ t, s'.tokens.peeked = some t ∧ t.readAt = ev.start ∧ (t.marker = .VersionDirective ∨ t.marker = .TagDirective) := by
  obtain ⟨s1, h0, h1⟩ := calls_append h
  cases h1 with
  | cons fuel h1 hd t1 =>
    have hs := nextEventLoop_shut h1 hev
    rename_i s2
    have hc : Calls drive (start src) (a ++ [.ok (some ev)]) s2 := by
      clear h t1 hs
      generalize start src = s0 at h0
      induction h0 with
      | nil => exact .cons fuel h1 hd (.nil _)
      | cons f e d _ ih => exact .cons f e d (ih h1)
    cases t1 with
    | cons fuel' h2 hd' t2 =>
      rcases shut_fails hs h2 with hp | hj
      · exact .inr ⟨s2, hc, hp⟩
      · cases fuel' with
        | zero => cases h2
        | succ n =>
          rw [junk_again hj] at h2
          simp only [Prod.mk.injEq, true_and] at h2
          subst h2
          exact .inl (junk_calls t2 hj)

theorem pop_next {ops : List ROp} {p p' : PeekReader σ} {t : TokenEntry} (h : (runOps drive ops p).2 = p') (hp : p'.peeked = some t) :
    runOps drive (ops ++ [.pop]) p = ((runOps drive ops p).1 ++ [(.pop, .ok (some t))], { p' with peeked := none }) := by
  rw [Client.ops_append, h]
  obtain ⟨pk, r⟩ := p'
  obtain rfl : pk = some t := hp
  rfl

/-- What calls that do not panic ask of the reader does not panic. -/
theorem calls_quiet {s s' : PS σ} {os : List (Out ParseError (Option Event))} (h : Calls drive s os s') (hq : ∀ o ∈ os, o ≠ .panic) :
    ∃ ops, (runOps drive ops s.tokens).2 = s'.tokens ∧ ∀ x ∈ (runOps drive ops s.tokens).1, x.2 ≠ .panic := by
  induction h with
  | nil => exact ⟨[], rfl, nofun⟩
  | @cons s s1 s2 o os fuel h hd _ ih =>
    obtain ⟨ops, h1, h2, -⟩ := Client.nextEvent (drive := drive) fuel s
    obtain ⟨ops', h3, h4⟩ := ih fun o ho => hq o (List.mem_cons_of_mem _ ho)
    have hp := hq o (by simp)
    rw [h] at h1 h2
    refine ⟨ops ++ ops', by rw [Client.ops_append, ← h1, h3], fun x hx => ?_⟩
    rw [Client.ops_append, ← h1] at hx
    replace hx := List.mem_append.1 hx
    rcases hx with hx | hx
    · have hall : ∀ {l : List (ROp × Out ReaderError (Option TokenEntry))}, AllOk l → ∀ x ∈ l, x.2 ≠ .panic := fun hl x hx => by
        obtain ⟨_, e⟩ := hl x hx
        rw [e]; nofun
      generalize (runOps drive ops s.tokens).1 = l at h2 hx
      dsimp only at h2
      clear h h1
      cases h2 with
      | ok ha => exact hall ha x hx
      | own _ ha => exact hall ha x hx
      | raised ha =>
        rcases List.mem_append.1 hx with hx | hx
        · exact hall ha x hx
        · simp only [List.mem_singleton] at hx
          subst hx; nofun
      | panic => exact absurd rfl hp
      | diverge => exact absurd rfl hd
    · exact h4 x hx

end Again

/-- **C75.** When a document was ended implicitly and the next call reported that the start of another is missing, every later call reports the same: nothing
of what stands there is shown as part of a document. Or else what stands there is a directive: the next token of the source, which is where the document's
end was said to be. For all sources of tokens, and whatever the calls before returned. -/
theorem C75_partial {a b : List (Out ParseError (Option Event))} {ev : Event} {s : PS σ}
    (h : Calls drive (start src) (a ++ .ok (some ev) :: .err .MissingDocumentStart :: b) s) (hev : ev.data = .DocumentEnd true) :
    (∀ o ∈ b, o = .err .MissingDocumentStart) ∨
    ∃ ops t, (∃ p, runOps drive (ops ++ [.pop]) (PeekReader.new src) = ((runOps drive ops (PeekReader.new src)).1 ++ [(.pop, .ok (some t))], p)) ∧
      t.readAt = ev.start ∧ (t.marker = .VersionDirective ∨ t.marker = .TagDirective) := by
  refine (Again.after_end h hev).imp id ?_
  rintro ⟨s', hc, t, hp, h2⟩
  obtain ⟨ops, -, hops, -⟩ := calls_accounted hc
  exact ⟨ops, t, ⟨_, Again.pop_next hops hp⟩, h2⟩

/-- **C75** for texts without a `%`, in all of which there is no directive: when a document was ended implicitly and the next call reported that the start of
another is missing, every later call reports the same. Whatever the calls before returned, if not a panic. -/
theorem C75_text_partial {opts : SFlags} {text : List Char} {a b : List (Out ParseError (Option Event))} {ev : Event} {s : PS Scanner}
    (h : Calls (borrowDrive opts (utf8 text)) (start {}) (a ++ .ok (some ev) :: .err .MissingDocumentStart :: b) s) (hev : ev.data = .DocumentEnd true)
    (ht : '%' ∉ text) (ha : ∀ o ∈ a, o ≠ .panic) : ∀ o ∈ b, o = .err .MissingDocumentStart := by
  refine (Again.after_end h hev).elim id ?_
  rintro ⟨s', hc, t, hp, -, hm⟩
  obtain ⟨ops, hops, hq⟩ := Again.calls_quiet hc fun o ho => by
    rcases List.mem_append.1 ho with ho | ho
    · exact ha o ho
    · simp only [List.mem_singleton] at ho
      subst ho; nofun
  have hr := Again.pop_next (drive := borrowDrive opts (utf8 text)) (p := PeekReader.new {}) hops hp
  have hd := handed_noDirective (opts := opts) (text := text) (ops := ops ++ [.pop]) (fun h => ht (mem_utf8 (c := '%') (by decide) h)) (by
    rw [hr]
    intro x hx
    rcases List.mem_append.1 hx with hx | hx
    · exact hq x hx
    · simp only [List.mem_singleton] at hx
      subst hx; nofun) t (by rw [hr, Client.handed_append]; simp [handed])
  rcases hm with hm | hm <;> simp [isDirective, hm] at hd

/-- Nothing can follow a sequence on the same line. -/
example : ∃ a ev s, Calls (borrowDrive {} (utf8 "[a] b".toList)) (start {})
    (a ++ .ok (some ev) :: .err .MissingDocumentStart :: List.replicate 3 (.err .MissingDocumentStart)) s ∧ a.length = 5 ∧ ev.data = .DocumentEnd true ∧
    (∀ o ∈ a, o ≠ .panic) ∧ '%' ∉ "[a] b".toList := by
  have h := someCalls_calls (drive := borrowDrive {} (utf8 "[a] b".toList)) (fuel := 40) 10 (s := start {}) (by decide +kernel)
  refine ⟨(someCalls (borrowDrive {} (utf8 "[a] b".toList)) 40 5 (start {})).1, ⟨5, 5, .DocumentEnd true⟩,
    (someCalls (borrowDrive {} (utf8 "[a] b".toList)) 40 10 (start {})).2, ?_, by decide +kernel, rfl, by decide +kernel, by decide +kernel⟩
  have e : (someCalls (borrowDrive {} (utf8 "[a] b".toList)) 40 10 (start {})).1 =
      (someCalls (borrowDrive {} (utf8 "[a] b".toList)) 40 5 (start {})).1 ++
      .ok (some ⟨5, 5, .DocumentEnd true⟩) :: .err .MissingDocumentStart :: List.replicate 3 (.err .MissingDocumentStart) := by
    decide +kernel
  rw [← e]
  exact h

/-- **C75** in general is false: a directive after a document, with nothing after it, is reported once and is then lost. -/
theorem C75_false : ∃ text : List Char,
    let os := (nexts (Events.textDrive (fromUtf8 text) 0) 60 9 Events.ofText).1
    os[6]? = some (.err ⟨.Code .MissingDocumentStart, 0, 0, 0⟩) ∧ os[7]? = some (.ok (some ⟨14, 14, .StreamEnd⟩)) ∧ os[8]? = some (.ok none) :=
  ⟨"[a]\n%YAML 1.2\n".toList, by decide +kernel⟩

/-- Nor does the error stay at the first document: its directives are lost, and the next call starts it without them, with the default tags only. -/
theorem C75_false_first : ∃ text : List Char,
    let os := (nexts (Events.textDrive (fromUtf8 text) 0) 60 7 Events.ofText).1
    os[1]? = some (.err ⟨.Code .MissingDocumentStart, 0, 0, 0⟩) ∧
    (∃ i j, os[2]? = some (.ok (some ⟨i, j, .DocumentStart ⟨⟨1, 2⟩, defaultTags⟩ true⟩))) ∧
    os[6]? = some (.ok none) :=
  ⟨"%TAG !e! x:\nb".toList, by decide +kernel, ⟨13, 13, by decide +kernel⟩, by decide +kernel⟩

end Yary
