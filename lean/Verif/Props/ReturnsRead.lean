import Verif.Proof.Chunk.Cost
import Verif.Props.Returns

/-! # C79 for streams that read from a source, and how many tokens and events there are (C49, C50) -/

namespace Yary

open Spec

variable {opts : SFlags} {size : Nat → Nat → Nat} {src : Source}

/-! ### C49, C50 -/

/-- The reader of a source, as long as all calls succeed. -/
theorem sourceWithin (s : Owned × Scanner) (D : List TokenEntry) (o : Out ReaderError Unit) (b : List TokenEntry) (s' : Owned × Scanner)
    (hJ : Between true size opts src s.1 s.2 ∧ D.length + Chunk.sourceDebt s ≤ 3 * (bytesOf src).length + 2)
    (hd : ownedDrive size opts s = (o, b, s')) (ho : o = .ok ()) :
    Between true size opts src s'.1 s'.2 ∧ (D ++ deliver b).length + Chunk.sourceDebt s' ≤ 3 * (bytesOf src).length + 2 := by
  subst ho
  unfold ownedDrive at hd
  obtain ⟨h1, h2⟩ := hJ
  have h3 := Chunk.ownedLoop_between (s.1.source.reads + 3) s.1 s.2 [] h1
  have h4 := Chunk.ownedLoop_pays (s.1.source.reads + 3) s.1 s'.1 s.2 s'.2 [] b () (Chunk.between_sound h1) hd
  rw [hd] at h3
  refine ⟨h3 nofun, ?_⟩
  rw [List.length_append, (deliver_stable b).perm.length_eq]
  rw [List.length_nil] at h4
  change b.length + Chunk.sourceDebt s' ≤ 0 + Chunk.sourceDebt s at h4
  omega

/-- **C49**, for a source: whatever the size of the chunks, calls that all succeed hand out at most three tokens per byte of the source, and two. -/
theorem C49_chunks {ops : List ROp} (h : AllOk (chunked size opts src ops)) :
    (handed (chunked size opts src ops)).length ≤ 3 * (bytesOf src).length + 2 := by
  have := reader_kept (J := fun s D => Between true size opts src s.1 s.2 ∧ D.length + Chunk.sourceDebt s ≤ 3 * (bytesOf src).length + 2)
    (K := fun o => o = .ok ()) (drive := ownedDrive size opts) (src := ({ source := src }, {})) sourceWithin
    ⟨.start, by
      rw [Chunk.sourceDebt_eq]
      simp [Cost.debt, Cost.due]
      omega⟩ ops (fun x hx => by
      obtain ⟨t, ht⟩ := h x hx
      rw [ht]
      rfl)
  have := this.2.2
  rw [List.length_append, List.length_append] at this
  unfold chunked
  omega

/-- **C50**, for a source: at most nine events per byte, and seven. -/
theorem C50_chunks {s : PS (Owned × Scanner)} {es : List Event} (h : Yields (ownedDrive size opts) (start ({ source := src }, {})) es s) :
    es.length ≤ 9 * (bytesOf src).length + 7 := by
  obtain ⟨ts, h3, h4⟩ := C50_prefix h
  obtain ⟨ops, h1, rfl, -⟩ := Count.pops_ops h3
  have := C49_chunks (ops := ops) h1
  unfold chunked at this
  change (handed (runOps (ownedDrive size opts) ops (PeekReader.new ({ source := src }, {}))).1).length ≤ _ at this
  change es.length ≤ 3 * (handed (runOps (ownedDrive size opts) ops (PeekReader.new ({ source := src }, {}))).1).length + 1 at h4
  omega

/-! ### C79 -/

/-- **C79**, for a source: also here the next call returns, after any calls that did not panic, whatever the source, failures of reading among what the calls
returned, for all sizes of chunks. -/
theorem C79_read_returns (hsize : ∀ a b, 0 < size a b) {os : List (Out ParseError (Option Event))} {s : PS (Owned × Scanner)}
    (h : Calls (ownedDrive size opts) (start ({ source := src }, {})) os s) (hp : ∀ o ∈ os, o ≠ .panic)
    {fuel : Nat} (hf : s.tokens.left Chunk.sourceDebt + 2 ≤ fuel) : (Parser.nextEvent (ownedDrive size opts) fuel s).1 ≠ .diverge := by
  have hJ : ∀ (s : Owned × Scanner) (D : List TokenEntry) (o : Out ReaderError Unit) (b : List TokenEntry) (s' : Owned × Scanner),
      Between true size opts src s.1 s.2 → ownedDrive size opts s = (o, b, s') → o ≠ .panic → Between true size opts src s'.1 s'.2 := by
    intro s D o b s' hJ hd hK
    have := Chunk.ownedLoop_between (s.1.source.reads + 3) s.1 s.2 [] hJ
    unfold ownedDrive at hd
    rw [hd] at this
    exact this hK
  obtain ⟨ops, h1, h2⟩ := Again.calls_quiet h hp
  have hD := reader_kept (J := fun s _ => Between true size opts src s.1 s.2) (K := fun o => o ≠ .panic)
    (drive := ownedDrive size opts) (src := ({ source := src }, {})) hJ .start ops (fun x hx hp => h2 x hx (void_eq_panic.1 hp))
  change Kept _ (runOps (ownedDrive size opts) ops (start ({ source := src }, {})).tokens).2 _ at hD
  rw [h1] at hD
  refine Returns.nextEvent_returns (J := fun s _ => Between true size opts src s.1 s.2) hJ (fun s _ hs => ?_) (fun s u hs hu => ?_)
    (calls_inv h Parser.new_inv) hD hf
  · exact Chunk.ownedLoop_ends hsize (s.1.source.reads + 3) _ _ [] (Chunk.between_sound hs) (.inr (by omega))
  · obtain ⟨_, hs⟩ := hs
    have := Chunk.ownedLoop_pays (size := size) (opts := opts) (s.1.source.reads + 3) s.1 (ownedDrive size opts s).2.2.1 s.2 (ownedDrive size opts s).2.2.2 []
      (ownedDrive size opts s).2.1 u (Chunk.between_sound hs) (Prod.ext hu rfl)
    simpa using this

/-- **C79**, for a source: as many further calls as one likes can be made, unless one of them panics. -/
theorem C79_read_calls (hsize : ∀ a b, 0 < size a b) {os : List (Out ParseError (Option Event))} {s : PS (Owned × Scanner)}
    (h : Calls (ownedDrive size opts) (start ({ source := src }, {})) os s) (hp : ∀ o ∈ os, o ≠ .panic) (n : Nat) :
    ∃ os' s', Calls (ownedDrive size opts) s os' s' ∧ (os'.length = n ∨ (.panic ∈ os' ∧ os'.length ≤ n)) := by
  induction n with
  | zero => exact ⟨[], _, .nil _, .inl rfl⟩
  | succ n ih =>
    obtain ⟨os', s', h', hl⟩ := ih
    by_cases hp' : .panic ∈ os'
    · exact ⟨os', s', h', .inr ⟨hp', by rcases hl with hl | hl <;> omega⟩⟩
    · have hn := C79_read_returns hsize (calls_join h h') (fun o ho he => by
        rcases List.mem_append.1 ho with ho | ho
        · exact hp o ho he
        · exact hp' (he ▸ ho)) (Nat.le_refl _)
      refine ⟨_, _, calls_join h' (.cons _ rfl hn (.nil _)), .inl ?_⟩
      rcases hl with hl | hl
      · simp [hl]
      · exact absurd hl.1 hp'

/-- **C79**, with C50, for a source: calling until something else than an event comes back does end, after at most so many calls. -/
theorem C79_read_ends (hsize : ∀ a b, 0 < size a b) (opts : SFlags) (src : Source) :
    ∃ es s, Yields (ownedDrive size opts) (start ({ source := src }, {})) es s ∧ es.length ≤ 9 * (bytesOf src).length + 7 ∧
      ∃ fuel, (Parser.nextEvent (ownedDrive size opts) fuel s).1 ≠ .diverge ∧ ∀ e, (Parser.nextEvent (ownedDrive size opts) fuel s).1 ≠ .ok (some e) := by
  have go : ∀ k es s, Yields (ownedDrive size opts) (start ({ source := src }, {})) es s → 9 * (bytesOf src).length + 8 ≤ es.length + k →
      ∃ es s, Yields (ownedDrive size opts) (start ({ source := src }, {})) es s ∧ ∃ fuel, (Parser.nextEvent (ownedDrive size opts) fuel s).1 ≠ .diverge ∧
        ∀ e, (Parser.nextEvent (ownedDrive size opts) fuel s).1 ≠ .ok (some e) := by
    intro k
    induction k with
    | zero =>
      intro es s h hk
      have := C50_chunks h
      omega
    | succ k ih =>
      intro es s h hk
      have hc := Later.yields_calls h (.nil s)
      have hn := C79_read_returns hsize hc (fun o ho => by
        rw [List.append_nil] at ho
        obtain ⟨e, -, rfl⟩ := List.mem_map.1 ho
        nofun) (Nat.le_refl _)
      generalize s.tokens.left Chunk.sourceDebt + 2 = fuel at hn
      by_cases he : ∀ e, (Parser.nextEvent (ownedDrive size opts) fuel s).1 ≠ .ok (some e)
      · exact ⟨es, s, h, fuel, hn, he⟩
      · simp only [not_forall, ne_eq, not_not] at he
        obtain ⟨e, he⟩ := he
        refine ih _ _ (yields_join h (.cons fuel (Prod.ext he rfl) (.nil _))) ?_
        rw [List.length_append, List.length_singleton]
        omega
  obtain ⟨es, s, h, hf⟩ := go _ [] _ (.nil _) (Nat.le_add_left _ _)
  exact ⟨es, s, h, C50_chunks h, hf⟩

/-! ### Examples -/

/-- A source that fails twice. -/
def failsTwice : Source := [(bytes! "[a, b", some ⟨7, .Other 5⟩), (bytes! "c, ", some ⟨8, .Other 5⟩), (bytes! "d]", none)]

/-- Eight calls on it in chunks of three bytes, none of which panics, and two of which report the failures; then calls go on. -/
example : let r := someCalls (ownedDrive (fun _ _ => 3) {}) 60 8 (start ({ source := failsTwice }, {}))
    Calls (ownedDrive (fun _ _ => 3) {}) (start ({ source := failsTwice }, {})) r.1 r.2 ∧ (∀ o ∈ r.1, o ≠ .panic) ∧
    .err (.IO ⟨7, .Other 5⟩) ∈ r.1 ∧ .err (.IO ⟨8, .Other 5⟩) ∈ r.1 :=
  ⟨someCalls_calls 8 (by decide +kernel), by decide +kernel, by decide +kernel, by decide +kernel⟩

/-- The bound on tokens is attained by a source of one byte. -/
example : AllOk (chunked (fun _ _ => 4) {} [(bytes! ":", none)] (List.replicate 6 .pop)) ∧
    (handed (chunked (fun _ _ => 4) {} [(bytes! ":", none)] (List.replicate 6 .pop))).length = 3 * (bytesOf [(bytes! ":", none)]).length + 2 :=
  ⟨allOk_of_decide (by decide +kernel), by decide +kernel⟩

end Yary
