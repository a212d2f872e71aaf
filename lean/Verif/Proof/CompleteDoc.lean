import Verif.Proof.Complete

/-! Documents and streams of the token language. -/

namespace Yary

open Spec PM

variable {σ : Type} {drive : Drive σ}

namespace Parser

variable {s : PS σ} {m : StateMachine} {d : Directives} {t : TokenEntry} {l : List TokenEntry}

/-- Directives with the default version filled in. -/
def dirsOf (v : Option Version) (tags : List (Str × Str)) : Directives :=
  { version := v.getD { major := 1, minor := 2 }, tags }

theorem get_isSome_false {tags : TagMap} {h : Str} (hn : ∀ p, (h, p) ∉ tags) :
    (tags.get h).isSome = false := by
  unfold TagMap.get
  rw [Option.isSome_map]
  cases hf : List.find? (fun p => p.1 == h) tags with
  | none => rfl
  | some p =>
    have h1 := List.mem_of_find?_eq_some hf
    have h2 := List.find?_some hf
    simp only [beq_iff_eq] at h2
    obtain ⟨k, v⟩ := p
    simp only at h2
    subst h2
    exact absurd h1 (hn v)

theorem run_directives {ts : List MaybeToken} {v : Option Version} {tags : List (Str × Str)}
    (h : TDirectives ts v tags) {lt : List TokenEntry} (hl : lt.map TokenEntry.wrap = ts)
    {l : List TokenEntry} (hne : l ≠ []) (a : At drive s m d (lt ++ l)) (fuel stop : Nat) :
    ∃ s' stop', scanDirectivesLoop drive (fuel + ts.length) stop false Directives.default s =
        scanDirectivesLoop drive fuel stop' v.isSome (dirsOf v tags) s' ∧ At drive s' m d l := by
  induction h generalizing lt l fuel stop with
  | nil =>
    rw [List.map_eq_nil_iff] at hl
    subst hl
    exact ⟨s, stop, rfl, a⟩
  | @version ts tags major minor t ih =>
    obtain ⟨l1, l2, rfl, hl1, hl2⟩ := List.map_eq_append_iff.mp hl
    obtain ⟨x, rfl, hx⟩ := wrap_one hl2
    have hm : x.marker = .VersionDirective := marker_of_wrap hx
    rw [List.append_assoc] at a
    obtain ⟨s1, stop1, h1, a1⟩ := ih hl1 (l := [x] ++ l) (by simp) a (fuel + 1) stop
    obtain ⟨s2, h2, a2⟩ := at_peek a1
    obtain ⟨s3, h3, a3⟩ := at_pop a2
    refine ⟨s3, x.readAt, ?_, a3⟩
    rw [List.length_append, List.length_singleton, Nat.add_comm ts.length 1, ← Nat.add_assoc, h1]
    rw [scanDirectivesLoop]
    simp only [bind, SO.bind, h2, hm, Option.isSome_none, Bool.not_false, if_true, consumeVersion,
      h3, hx, pure, SO.pure]
    rfl
  | @tag ts v tags handle pfx t hn ih =>
    obtain ⟨l1, l2, rfl, hl1, hl2⟩ := List.map_eq_append_iff.mp hl
    obtain ⟨x, rfl, hx⟩ := wrap_one hl2
    have hm : x.marker = .TagDirective := marker_of_wrap hx
    rw [List.append_assoc] at a
    obtain ⟨s1, stop1, h1, a1⟩ := ih hl1 (l := [x] ++ l) (by simp) a (fuel + 1) stop
    obtain ⟨s2, h2, a2⟩ := at_peek a1
    obtain ⟨s3, h3, a3⟩ := at_pop a2
    refine ⟨s3, x.readAt, ?_, a3⟩
    rw [List.length_append, List.length_singleton, Nat.add_comm ts.length 1, ← Nat.add_assoc, h1]
    rw [scanDirectivesLoop]
    have hg : ((dirsOf v tags).tags.get handle).isSome = false := get_isSome_false hn
    simp only [bind, SO.bind, h2, hm, consumeTagDirective, h3, hx, pure, SO.pure, hg,
      Bool.false_eq_true, if_false]
    rfl

theorem known_mem {ts : List MaybeToken} {v : Option Version} {tags : List (Str × Str)}
    (h : TDirectives ts v tags) : ∀ p ∈ knownTags, p ∈ tags := by
  induction h with
  | nil => exact fun p h => h
  | version major minor t ih => exact ih
  | tag handle pfx t hn ih => exact fun p h => by simp [ih p h]

theorem orInsert_known {tags : TagMap} (h : ∀ p ∈ knownTags, p ∈ tags) :
    defaultTags.foldl (fun m p => TagMap.orInsert m p.1 p.2) tags = tags := by
  have hs : ∀ k p, (k, p) ∈ tags → (TagMap.get tags k).isSome = true := by
    intro k p h
    unfold TagMap.get
    rw [Option.isSome_map, List.find?_isSome]
    exact ⟨(k, p), h, by simp⟩
  have h1 := hs (bytes! "!") (bytes! "!") (h _ (by decide))
  have h2 := hs (bytes! "!!") (bytes! "tag:yaml.org,2002:") (h _ (by decide))
  simp [defaultTags, TagMap.orInsert, h1, h2]

/-- `scan_document_directives` in front of a token that is no directive. -/
theorem at_scanDirectives {ts : List MaybeToken} {v : Option Version} {tags : List (Str × Str)}
    (h : TDirectives ts v tags) {lt : List TokenEntry} (hl : lt.map TokenEntry.wrap = ts)
    (hm : t.marker ≠ .VersionDirective) (hm' : t.marker ≠ .TagDirective)
    (a : At drive s m d (lt ++ t :: l)) (fuel : Nat) :
    ∃ x y s', scanDocumentDirectives drive (fuel + 1 + ts.length) s =
      (.ok (x, y, dirsOf v tags), s') ∧ At drive s' m d (t :: l) := by
  obtain ⟨e, r, hr⟩ : ∃ e r, lt ++ t :: l = e :: r := by
    cases lt with
    | nil => exact ⟨_, _, rfl⟩
    | cons a b => exact ⟨_, _, rfl⟩
  have a' := a
  rw [hr] at a'
  obtain ⟨s0, h0, a0⟩ := at_peek a'
  rw [← hr] at a0
  obtain ⟨s1, stop1, h1, a1⟩ := run_directives h hl (by simp) a0 (fuel + 1) e.readAt
  obtain ⟨s2, h2, a2⟩ := at_peek a1
  refine ⟨e.readAt, stop1, s2, ?_, a2⟩
  have h3 : scanDirectivesLoop drive (fuel + 1) stop1 v.isSome (dirsOf v tags) s1 =
      (.ok (stop1, dirsOf v tags), s2) := by
    rw [scanDirectivesLoop]
    simp only [bind, SO.bind, h2]
    generalize t.marker = mk at hm hm'
    cases mk <;> first | rfl | exact absurd rfl hm | exact absurd rfl hm'
  simp only [scanDocumentDirectives, bind, SO.bind, h0, h1, h3, pure, SO.pure]
  rw [show (dirsOf v tags).tags = tags from rfl, orInsert_known (known_mem h)]
  rfl

theorem at_skipEnds {b : Bool} (fuel : Nat) (hm : b = false → t.marker ≠ .DocumentEnd)
    (a : At drive s m d (t :: l)) :
    ∃ s', skipEndsIf drive (fuel + 1) b s = (.ok (), s') ∧ At drive s' m d (t :: l) := by
  cases b with
  | true => exact ⟨s, rfl, a⟩
  | false =>
    obtain ⟨s1, h1, a1⟩ := at_peek a
    refine ⟨s1, ?_, a1⟩
    simp [skipEndsIf, skipDocumentEnds, bind, SO.bind, h1, hm rfl, pure, SO.pure]

theorem at_setDirectives (d' : Directives) (h : At drive s m d l) :
    ∃ s', setDirectives d' s = (.ok (), s') ∧ At drive s' m d' l :=
  ⟨_, rfl, by simp [h.parser], h.ahead⟩

/-- What comes after a document. -/
def docHeads : List Marker := [.StreamEnd, .DocumentStart, .VersionDirective, .TagDirective]

theorem TDirectives.heads {ts : List MaybeToken} {v : Option Version} {tags : List (Str × Str)}
    (h : TDirectives ts v tags) :
    ts = [] ∨ ∃ w ws, ts = w :: ws ∧
      (w.marker = .VersionDirective ∨ w.marker = .TagDirective) := by
  induction h with
  | nil => exact .inl rfl
  | version major minor t ih =>
    right
    rcases ih with rfl | ⟨w, ws, rfl, h⟩
    · exact ⟨_, _, rfl, .inl rfl⟩
    · exact ⟨_, _, rfl, h⟩
  | tag handle pfx t hn ih =>
    right
    rcases ih with rfl | ⟨w, ws, rfl, h⟩
    · exact ⟨_, _, rfl, .inr rfl⟩
    · exact ⟨_, _, rfl, h⟩

theorem explicit_heads {dts : List MaybeToken} {v : Option Version} {tags : List (Str × Str)}
    (h : TDirectives dts v tags) {r : List MaybeToken} {l : List TokenEntry}
    (hl : l.map TokenEntry.wrap = dts ++ .Token .DocumentStart :: r) :
    Heads l [.DocumentStart, .VersionDirective, .TagDirective] := by
  rcases TDirectives.heads h with rfl | ⟨w, ws, rfl, hw⟩
  · exact heads_of_wrap hl (by decide)
  · refine heads_of_wrap hl ?_
    rcases hw with h | h <;> simp [h]

theorem TDocs.heads {ts : List MaybeToken} {es : List EventData} (h : TDocs false ts es)
    {l : List TokenEntry} (hl : l.map TokenEntry.wrap = ts) : Heads l docHeads := by
  cases h with
  | done => exact heads_of_wrap hl (by decide)
  | explicit hd h he t => exact (explicit_heads hd hl).mono (by decide)

/-- The end of a document. -/
theorem run_end {b : Bool} {x ts : List MaybeToken} {y es : List EventData} (he : TEnd b x y)
    (ht : TDocs b ts es) {lx lt : List TokenEntry} (hlx : lx.map TokenEntry.wrap = x)
    (hlt : lt.map TokenEntry.wrap = ts) {K : List State}
    (a : At drive s { top := .DocumentEnd, stack := K } d (lx ++ lt)) :
    ∃ s', Reach drive s y s' ∧ At drive s' { top := .DocumentStart b false, stack := K } d lt := by
  have hst : ∀ s : PS σ, s.parser.state.top = .DocumentEnd →
      stateTransition drive 1 s = documentEnd drive s := by
    intro s hs; simp [stateTransition, bind, SO.bind, SO.get, hs]
  cases he with
  | implicit =>
    rw [List.map_eq_nil_iff] at hlx
    subst hlx
    obtain ⟨e, r, rfl, hm⟩ := TDocs.heads ht hlt
    have hne : e.marker ≠ .DocumentEnd := by
      intro h
      rw [h] at hm
      revert hm
      decide
    obtain ⟨s1, h1, a1⟩ := at_peek a
    obtain ⟨s2, h2, a2⟩ := at_setTop (.DocumentStart false false) a1
    refine ⟨s2, Reach.of_handler (e := ⟨e.readAt, e.readAt, .DocumentEnd true⟩) a hst ?_, a2⟩
    simp [documentEnd, implicitEnd, bind, SO.bind, h1, hne, h2, pure, SO.pure]
  | explicit =>
    obtain ⟨e, rfl, he⟩ := wrap_one hlx
    have hm : e.marker = .DocumentEnd := marker_of_wrap he
    obtain ⟨s1, h1, a1⟩ := at_peek a
    obtain ⟨s2, h2, a2⟩ := at_pop a1
    obtain ⟨s3, h3, a3⟩ := at_setTop (.DocumentStart true false) a2
    refine ⟨s3, Reach.of_handler (e := ⟨e.readAt, e.readAt, .DocumentEnd false⟩) a hst ?_, a3⟩
    simp [documentEnd, implicitEnd, bind, SO.bind, h1, hm, h2, h3, pure, SO.pure]

/-- What follows the content of a document. -/
theorem end_heads {b : Bool} {x ts : List MaybeToken} {y es : List EventData} (he : TEnd b x y)
    (ht : TDocs b ts es) {lx lt : List TokenEntry} (hlx : lx.map TokenEntry.wrap = x)
    (hlt : lt.map TokenEntry.wrap = ts) : Heads (lx ++ lt) (.DocumentEnd :: docHeads) := by
  cases he with
  | implicit =>
    rw [List.map_eq_nil_iff] at hlx
    subst hlx
    exact (TDocs.heads ht hlt).mono (by decide)
  | explicit => exact (heads_of_wrap hlx (by decide)).append _

theorem run_streamEnd {K : List State} {b : Bool} {lt : List TokenEntry}
    (hl : lt.map TokenEntry.wrap = [.Token .StreamEnd])
    (a : At drive s { top := .DocumentStart b false, stack := K } d lt) :
    ∃ s', Reach drive s [.StreamEnd] s' ∧ s'.parser.done = true := by
  obtain ⟨e, rfl, he⟩ := wrap_one hl
  have hm : e.marker = .StreamEnd := marker_of_wrap he
  obtain ⟨s1, h1, a1⟩ := at_skipEnds (b := b) 1 (by simp [hm]) a
  obtain ⟨s2, h2, a2⟩ := at_peek a1
  obtain ⟨s3, h3, a3⟩ := at_setTop .StreamEnd a2
  obtain ⟨s4, h4, a4⟩ := at_pop a3
  refine ⟨{ s4 with parser := { s4.parser with done := true } }, ?_, rfl⟩
  refine Reach.skip (e := ⟨e.readAt, e.readAt, .StreamEnd⟩) (fuel := 0) (s1 := s3)
    (by rw [a.parser]) ?_ (by rw [a3.parser]) ?_
  · simp [stateTransition, bind, SO.bind, SO.get, a.parser, documentStart, h1, h2, hm, h3, pure,
      SO.pure]
  · simp only [stateTransition, bind, SO.bind, SO.get, a3.parser, streamEnd, StateMachine.setTop,
      consumeStreamEnd, h4, he, pure, SO.pure, SO.modify, Bool.false_eq_true, if_false]

theorem run_docs {b : Bool} {ts : List MaybeToken} {es : List EventData} (h : TDocs b ts es)
    {first : Bool} (hne : first = true → ts ≠ [.Token .StreamEnd]) {K : List State}
    {l : List TokenEntry} (hl : l.map TokenEntry.wrap = ts)
    (a : At drive s { top := .DocumentStart b first, stack := K } d l) :
    ∃ s', Reach drive s es s' ∧ s'.parser.done = true := by
  induction h generalizing s d first l with
  | done b =>
    cases first with
    | true => exact absurd rfl (hne rfl)
    | false => exact run_streamEnd hl a
  | @bare u x ts v y es b h he t ih =>
    obtain ⟨lu, lr, rfl, hlu, hlr⟩ := List.map_eq_append_iff.mp hl
    obtain ⟨lx, lt, rfl, hlx, hlt⟩ := List.map_eq_append_iff.mp hlr
    obtain ⟨w, ws, hu, hw⟩ := TNode.starts h
    obtain ⟨e, le, rfl, hew, -⟩ := List.map_eq_cons_iff.mp (hlu.trans hu)
    have hem : startsNode e.marker = true := by rw [marker_of_wrap hew]; exact hw
    have hemk := not_mem_of_starts (ms := .DocumentEnd :: docHeads) (by decide) hem
    simp only [docHeads, List.mem_cons, List.not_mem_nil, or_false, not_or] at hemk
    obtain ⟨h1, h2, h3, h4, h5⟩ := hemk
    obtain ⟨s1, g1, a1⟩ := at_skipEnds (b := true) 0 (by simp) a
    obtain ⟨s2, g2, a2⟩ := at_peek a1
    obtain ⟨p, q, s3, g3, a3⟩ := at_scanDirectives .nil (lt := []) rfl h4 h5 a2 0
    obtain ⟨s4, g4, a4⟩ := at_pushState .DocumentEnd a3
    obtain ⟨s5, g5, a5⟩ := at_setTop .BlockNode a4
    obtain ⟨s6, g6, a6⟩ := at_setDirectives (dirsOf none knownTags) a5
    have hstart : Reach drive s [.DocumentStart (dirsOf none knownTags) true] s6 := by
      refine Reach.step (e := ⟨p, q, .DocumentStart (dirsOf none knownTags) true⟩) (fuel := 0)
        (by rw [a.parser]) ?_
      simp only [List.length_nil, Nat.zero_add, Nat.add_zero] at g1 g3
      simp [stateTransition, bind, SO.bind, SO.get, a.parser, documentStart, g1, g2, h2, h3, h4, h5,
        g3, g4, g5, g6, pure, SO.pure]
    obtain ⟨ev, s7, vs, s8, g7, rfl, g8, a8⟩ := run_node (d := dirsOf none knownTags) h s6 .BlockNode
      .DocumentEnd K (e :: le) (lx ++ lt) a6 hlu ((end_heads he t hlx hlt).follow (by decide))
    obtain ⟨s9, g9, a9⟩ := run_end he t hlx hlt a8
    obtain ⟨s10, g10, hd⟩ := ih (first := false) (by simp) hlt a9
    refine ⟨s10, ?_, hd⟩
    have hnode : Reach drive s6 [ev.data] s7 := by
      refine Reach.of_handler a6 (f := node drive true .Root) ?_ g7
      intro s hs; simp [stateTransition, bind, SO.bind, SO.get, hs]
    exact hstart.trans (hnode.trans (g8.trans (g9.trans g10)))
  | @explicit dts u x ts v y es bare b version tags hd h he t ih =>
    obtain ⟨ld, lr, rfl, hld, hlr⟩ := List.map_eq_append_iff.mp hl
    obtain ⟨ds, lr, rfl, hds, hlr⟩ := List.map_eq_cons_iff.mp hlr
    obtain ⟨lu, lr, rfl, hlu, hlr⟩ := List.map_eq_append_iff.mp hlr
    obtain ⟨lx, lt, rfl, hlx, hlt⟩ := List.map_eq_append_iff.mp hlr
    have hdm : ds.marker = .DocumentStart := marker_of_wrap hds
    obtain ⟨e, r, hr, hem⟩ := explicit_heads hd hl
    have hs2 : e.marker ≠ .DocumentEnd := by
      intro h
      rw [h] at hem
      revert hem
      decide
    have a' := a
    rw [hr] at a'
    obtain ⟨s1, g1, a1⟩ := at_skipEnds (b := bare) (0 + dts.length) (fun _ => hs2) a'
    obtain ⟨s2, g2, a2⟩ := at_peek a1
    rw [← hr] at a2
    obtain ⟨p, q, s3, g3, a3⟩ := at_scanDirectives hd hld (by simp [hdm]) (by simp [hdm]) a2 0
    obtain ⟨s4, g4, a4⟩ := at_peek a3
    obtain ⟨s5, g5, a5⟩ := at_pop a4
    obtain ⟨s6, g6, a6⟩ := at_pushState .DocumentEnd a5
    obtain ⟨s7, g7, a7⟩ := at_setTop .DocumentContent a6
    obtain ⟨s8, g8, a8⟩ := at_setDirectives (dirsOf version tags) a7
    have hstart : Reach drive s [.DocumentStart (dirsOf version tags) false] s8 := by
      refine Reach.step (e := ⟨p, ds.readAt, .DocumentStart (dirsOf version tags) false⟩)
        (fuel := dts.length) (by rw [a.parser]) ?_
      rw [show 0 + 1 + dts.length = dts.length + 1 by omega] at g3
      rw [show 0 + dts.length + 1 = dts.length + 1 by omega] at g1
      have hmk : documentMarker drive s3 = (.ok ds.readAt, s5) := by
        simp [documentMarker, bind, SO.bind, g4, hdm, g5, pure, SO.pure]
      simp only [List.mem_cons, List.not_mem_nil, or_false] at hem
      rcases hem with h | h | h <;>
        simp [stateTransition, bind, SO.bind, SO.get, a.parser, documentStart, g1, g2, h, g3, hmk,
          g6, g7, g8, pure, SO.pure]
    cases h with
    | nothing =>
      rw [List.map_eq_nil_iff] at hlu
      subst hlu
      have hh := end_heads he t hlx hlt
      obtain ⟨f, r', hr', hfm⟩ := hh
      -- the empty content is skipped in the call that reports the end
      obtain ⟨s9, g9, a9⟩ : ∃ s9, stateTransition drive 2 s8 = (.ok none, s9) ∧
          At drive s9 { top := .DocumentEnd, stack := K } (dirsOf version tags) (lx ++ lt) := by
        rw [List.nil_append, hr'] at a8
        obtain ⟨r1, k1, b1⟩ := at_peek a8
        obtain ⟨r2, k2, b2⟩ := at_popState b1
        refine ⟨r2, ?_, by rw [hr']; exact b2⟩
        have hc : explicitDocumentContent drive s8 = (.ok none, r2) := by
          simp only [docHeads, List.mem_cons, List.not_mem_nil, or_false] at hfm
          rcases hfm with h | h | h | h | h <;>
            simp [explicitDocumentContent, bind, SO.bind, k1, h, k2, pure, SO.pure]
        simp only [stateTransition, bind, SO.bind, SO.get, a8.parser, hc, StateMachine.setTop]
      obtain ⟨s10, g10, a10⟩ : ∃ s10, Reach drive s8 y s10 ∧
          At drive s10 { top := .DocumentStart b false, stack := K } (dirsOf version tags) lt := by
        have hst : ∀ s : PS σ, s.parser.state.top = .DocumentEnd →
            stateTransition drive 2 s = documentEnd drive s := by
          intro s hs; simp [stateTransition, bind, SO.bind, SO.get, hs]
        have hfin : ∀ {e : Event} {s' : PS σ}, documentEnd drive s9 = (.ok (some e), s') →
            Reach drive s8 [e.data] s' := by
          intro e s' h
          refine Reach.skip (fuel := 0) (by rw [a8.parser]) g9 (by rw [a9.parser]) ?_
          rw [hst s9 (by rw [a9.parser]), h]
        cases he with
        | implicit =>
          rw [List.map_eq_nil_iff] at hlx
          subst hlx
          obtain ⟨e', r'', rfl, hm⟩ := TDocs.heads t hlt
          have hne : e'.marker ≠ .DocumentEnd := by
            intro h
            rw [h] at hm
            revert hm
            decide
          obtain ⟨r1, k1, b1⟩ := at_peek a9
          obtain ⟨r2, k2, b2⟩ := at_setTop (.DocumentStart false false) b1
          refine ⟨r2, hfin (e := ⟨e'.readAt, e'.readAt, .DocumentEnd true⟩) ?_, b2⟩
          simp [documentEnd, implicitEnd, bind, SO.bind, k1, hne, k2, pure, SO.pure]
        | explicit =>
          obtain ⟨e', rfl, he⟩ := wrap_one hlx
          have hm : e'.marker = .DocumentEnd := marker_of_wrap he
          obtain ⟨r1, k1, b1⟩ := at_peek a9
          obtain ⟨r2, k2, b2⟩ := at_pop b1
          obtain ⟨r3, k3, b3⟩ := at_setTop (.DocumentStart true false) b2
          refine ⟨r3, hfin (e := ⟨e'.readAt, e'.readAt, .DocumentEnd false⟩) ?_, b3⟩
          simp [documentEnd, implicitEnd, bind, SO.bind, k1, hm, k2, k3, pure, SO.pure]
      obtain ⟨s11, g11, hdn⟩ := ih (first := false) (by simp) hlt a10
      exact ⟨s11, hstart.trans (g10.trans g11), hdn⟩
    | node h =>
      obtain ⟨w, ws, hu, hw⟩ := TNode.starts h
      obtain ⟨f, lf, rfl, hfw, -⟩ := List.map_eq_cons_iff.mp (hlu.trans hu)
      have hfm : startsNode f.marker = true := by rw [marker_of_wrap hfw]; exact hw
      have hfmk := not_mem_of_starts (ms := .DocumentEnd :: docHeads) (by decide) hfm
      simp only [docHeads, List.mem_cons, List.not_mem_nil, or_false, not_or] at hfmk
      obtain ⟨h1, h2, h3, h4, h5⟩ := hfmk
      obtain ⟨s9, g9, a9⟩ := at_peek a8
      obtain ⟨ev, s10, vs, s11, g10, rfl, g11, a11⟩ := run_node (d := dirsOf version tags) h s9
        .DocumentContent .DocumentEnd K (f :: lf) (lx ++ lt) a9 hlu
        ((end_heads he t hlx hlt).follow (by decide))
      obtain ⟨s12, g12, a12⟩ := run_end he t hlx hlt a11
      obtain ⟨s13, g13, hdn⟩ := ih (first := false) (by simp) hlt a12
      refine ⟨s13, ?_, hdn⟩
      have hnode : Reach drive s8 [ev.data] s10 := by
        refine Reach.of_handler a8 (f := explicitDocumentContent drive) ?_ ?_
        · intro s hs
          change s.parser.state.top = .DocumentContent at hs
          simp [stateTransition, bind, SO.bind, SO.get, hs]
        · simp [explicitDocumentContent, bind, SO.bind, g9, h1, h2, h3, h4, h5, g10]
      exact hstart.trans (hnode.trans (g11.trans (g12.trans g13)))

theorem run_stream {ts : List MaybeToken} {es : List EventData} (h : TStream ts es) {src : σ}
    {l : List TokenEntry} (hl : l.map TokenEntry.wrap = ts)
    (ha : Ahead drive (PeekReader.new src) l) :
    ∃ s', Reach drive (start src) es s' ∧ s'.parser.done = true := by
  have a0 : At drive (start src) { top := .StreamStart, stack := [] } .default l := ⟨rfl, ha⟩
  have hstart : ∀ {enc : StreamEncoding} {r : List MaybeToken},
      ts = .Token (.StreamStart enc) :: r → ∃ x lr s1, l = x :: lr ∧ lr.map TokenEntry.wrap = r ∧
        Reach drive (start src) [.StreamStart enc] s1 ∧
        At drive s1 { top := .DocumentStart true true, stack := [] } .default lr := by
    intro enc r hr
    obtain ⟨x, lr, rfl, hx, hlr⟩ := List.map_eq_cons_iff.mp (hl.trans hr)
    have hm : x.marker = .StreamStart := marker_of_wrap hx
    obtain ⟨s1, h1, a1⟩ := at_peek a0
    obtain ⟨s2, h2, a2⟩ := at_pop a1
    obtain ⟨s3, h3, a3⟩ := at_setTop (.DocumentStart true true) a2
    refine ⟨x, lr, s3, rfl, hlr, ?_, a3⟩
    refine Reach.of_handler (e := ⟨x.readAt, x.readAt, .StreamStart enc⟩) a0
      (f := streamStart drive) ?_ ?_
    · intro s hs; simp [stateTransition, bind, SO.bind, SO.get, hs]
    · simp [streamStart, consumeStreamStart, bind, SO.bind, h1, hm, h2, hx, h3, pure, SO.pure]
  cases h with
  | empty enc =>
    obtain ⟨x, lr, s1, rfl, hlr, g1, a1⟩ := hstart rfl
    obtain ⟨e, rfl, he⟩ := wrap_one hlr
    have hm : e.marker = .StreamEnd := marker_of_wrap he
    obtain ⟨s2, g2, a2⟩ := at_skipEnds (b := true) 0 (by simp) a1
    obtain ⟨s3, g3, a3⟩ := at_peek a2
    obtain ⟨p, q, s4, g4, a4⟩ := at_scanDirectives .nil (lt := []) rfl (by simp [hm]) (by simp [hm])
      a3 0
    obtain ⟨s5, g5, a5⟩ := at_setTop .DocumentEnd a4
    obtain ⟨s6, g6, a6⟩ := at_setDirectives (dirsOf none knownTags) a5
    have h6 : Reach drive s1 [.DocumentStart (dirsOf none knownTags) true] s6 := by
      refine Reach.step (e := ⟨p, q, .DocumentStart (dirsOf none knownTags) true⟩) (fuel := 0)
        (by rw [a1.parser]) ?_
      simp only [List.length_nil, Nat.zero_add, Nat.add_zero] at g2 g4
      simp [stateTransition, bind, SO.bind, SO.get, a1.parser, documentStart, g2, g3, hm, g4, g5,
        g6, pure, SO.pure]
    obtain ⟨s7, g7, a7⟩ := run_end .implicit (.done false) (lx := []) rfl hlr a6
    obtain ⟨s8, g8, hd⟩ := run_streamEnd hlr a7
    exact ⟨s8, g1.trans (h6.trans (g7.trans g8)), hd⟩
  | docs enc h hne =>
    obtain ⟨x, lr, s1, rfl, hlr, g1, a1⟩ := hstart rfl
    obtain ⟨s2, g2, hd⟩ := run_docs h (fun _ => hne) hlr a1
    exact ⟨s2, g1.trans g2, hd⟩

end Parser

end Yary
