import Verif.Proof.Reading.Docs

/-! # Whole texts are read -/

namespace Yary.Reading

open Spec

variable {opts : SFlags} {base : Str}

theorem place_start : place base base = {} := (place_of (p := []) rfl).trans (posAfter_nil _)

/-- The first step, and the white space after it. -/
theorem goes_start (hx : opts.extendable = false) (hA : Ascii base) {s : Str} (hg : Gap base s) {F : SS}
    (h : Ends opts (st base s true none {} [⟨.Token (.StreamStart .UTF8), 0⟩]) F) : Goes opts ⟨{}, base, []⟩ F := by
  obtain ⟨n, hg⟩ := hg
  have h1 : Scan.scanNextToken opts ⟨{}, base, []⟩ = (.ok (), st base base true none {} [⟨.Token (.StreamStart .UTF8), 0⟩]) := by
    unfold st
    rw [place_start]
    rfl
  obtain ⟨-, -, h2⟩ := gap_run hx hA On.start hg true none {} [⟨.Token (.StreamStart .UTF8), 0⟩]
  refine .step (fun h => by cases h) h1 (goes_of_ends rfl h2 (expire_run (Loose.none.keeps _)) ?_)
  simpa [aged] using h

/-- The steps lead to the end, with tokens of the right kind. -/
theorem stream_reads (hx : opts.extendable = false) (hl : opts.lazy = false) (hA : Ascii base) {es : List EventData} (h : TextStream base es) :
    ∃ F, Goes opts ⟨{}, base, []⟩ F ∧ TStream ((deliver F.out).map TokenEntry.wrap) es := by
  have key : ∀ {s : Str} {es : List EventData}, Gap base s → Docs base none true s es →
      ∃ F T, Goes opts ⟨{}, base, []⟩ F ∧ (deliver F.out).map TokenEntry.wrap = .Token (.StreamStart .UTF8) :: T ∧ TDocs true T es := by
    intro s es hg h
    obtain ⟨n, hg'⟩ := hg
    have hon := On.start.pass (gap_passes hA On.start hg').1
    obtain ⟨F, P, T, n, h1, h2, h3, h4⟩ := docs_read (X := st base s true none {} [⟨.Token (.StreamStart .UTF8), 0⟩]) hx hl hA h
      (.inl ⟨rfl, rfl⟩) hon (.none _) (fun _ => .inr rfl) (.refl _)
    refine ⟨F, T, goes_start hx hA ⟨_, hg'⟩ h1, ?_, h4⟩
    rw [h2]
    exact ((Emit.one (a := 0) (n := 0) (.Token (.StreamStart .UTF8)) (Nat.le_refl _) (Nat.le_refl _)).append h3 (Nat.zero_le _)).toks
  cases h with
  | empty h =>
    obtain ⟨F, T, h1, h2, h3⟩ := key h .done
    refine ⟨F, h1, ?_⟩
    rw [h2]
    cases h3
    exact .empty _
  | @docs s es hg hne h =>
    obtain ⟨F, T, h1, h2, h3⟩ := key hg h
    refine ⟨F, h1, ?_⟩
    rw [h2]
    refine .docs _ h3 ?_
    rintro rfl
    have := docs_single h3
    subst this
    cases h with
    | done => exact hne rfl

end Yary.Reading
