import Verif.Proof.Scan.Comes

/-! # Anchors, tags and directives, and the steps that push them -/

namespace Yary

open Spec

variable {opts : SFlags}

theorem Out.Sat.total {α ε : Type} {x : Out ε α} {Q : α → Prop} (h : Out.Sat False x Q) : (∃ a, x = .ok a) ∨ ∃ e, x = .err e := by
  cases x <;> simp_all

theorem afterAnchor_not_alnum {b : Byte} (h : b ∈ afterAnchor) : isAlnum b = false := by
  have := anchorEnd_iff.2 h
  simp only [anchorEnd, Bool.or_eq_true, decide_eq_true_eq] at this
  rcases this with (((((((h|h)|h)|h)|h)|h)|h)|h)|h <;> subst h <;> decide

/-- The byte before the name of an anchor, or of an alias. -/
def anchorMark (isAlias : Bool) : Byte := if isAlias then b! '*' else b! '&'

theorem scanAnchor_par {isAlias : Bool} {t : Str} {m : MStats} :
    Out.Par (scanAnchor opts isAlias ⟨anchorMark isAlias :: t, m⟩) (fun r => AnchorText (anchorMark isAlias :: t) r.1 r.2.buf) := by
  refine (scanAnchor_sat (P := True) (.inl trivial) (by cases isAlias <;> decide)).par.mono ?_
  rintro ⟨tok, c⟩ ⟨-, name, h1, h2, h3, ⟨e, u, h4, h5⟩, h6⟩
  simp only at h3 h4 h6 ⊢
  have h2 := fun x hx => isAlnum_iff.1 (h2 x hx)
  have h5 := anchorEnd_iff.1 h5
  cases isAlias with
  | true => rw [h3, h6]; exact .alias h1 h2 h4 h5
  | false => rw [h3, h6]; exact .anchor h1 h2 h4 h5

theorem after_headOk {b : Byte} {r t : Str} (hr : r = b :: t) (hb : b ∈ afterAnchor) : HeadOk r := by
  rintro x y h
  rw [hr] at h
  simp at h
  have := anchorEnd_iff.2 hb
  rw [h.1] at this
  simp only [anchorEnd, Bool.or_eq_true, decide_eq_true_eq] at this
  left
  rcases this with (((((((h|h)|h)|h)|h)|h)|h)|h)|h <;> subst h <;> decide

/-- An anchor that is next is scanned. -/
theorem scanAnchor_ok (hx : opts.extendable = false) {isAlias : Bool} {t r : Str} {tok : Token} {m : MStats}
    (h : AnchorText (anchorMark isAlias :: t) tok r) :
    (∃ m', scanAnchor opts isAlias ⟨anchorMark isAlias :: t, m⟩ = .ok (tok, ⟨r, m'⟩)) ∧ Around (anchorMark isAlias :: t) r := by
  have main : ∀ {name r u : Str} {b : Byte}, name ≠ [] → (∀ b ∈ name, IsAlnum b) → r = b :: u → b ∈ afterAnchor →
      (∃ m', scanAnchor opts isAlias ⟨anchorMark isAlias :: (name ++ r), m⟩ = .ok (if isAlias then .Alias name else .Anchor name, ⟨r, m'⟩)) ∧
      Around (anchorMark isAlias :: (name ++ r)) r := by
    intro name r u b h1 h2 h3 h4
    have h2 := fun x hx => isAlnum_iff.2 (h2 x hx)
    have hh := after_headOk h3 h4
    refine ⟨?_, ⟨anchorMark isAlias :: name, rfl, .cons (by cases isAlias <;> decide) fun x hx => isAlnum_ascii (h2 x hx)⟩, hh⟩
    rw [scanAnchor_eq hx (by cases isAlias <;> decide) h2 ?_ hh, if_neg h1, h3]
    · simp only [checkAnchorEnd, anchorEnd_iff.2 h4, ↓reduceIte]
      exact ⟨_, rfl⟩
    · intro x y hxy
      rw [h3] at hxy
      simp at hxy
      rw [← hxy.1]
      exact afterAnchor_not_alnum h4
  generalize hs : anchorMark isAlias :: t = s at h
  cases h with
  | anchor h1 h2 h3 h4 =>
    simp only [List.cons.injEq] at hs
    obtain ⟨hm, rfl⟩ := hs
    cases isAlias with
    | true => exact absurd hm (by decide)
    | false => exact main h1 h2 h3 h4
  | alias h1 h2 h3 h4 =>
    simp only [List.cons.injEq] at hs
    obtain ⟨hm, rfl⟩ := hs
    cases isAlias with
    | true => exact main h1 h2 h3 h4
    | false => exact absurd hm (by decide)

/-! ### Directives -/

theorem eatWs_par {comments : Bool} {c : Cur} : Out.Par (eatWs opts comments c) (fun c' => ∃ n, Skips comments c.buf n c'.buf) := by
  intro c' h
  obtain ⟨n, p, h1, -⟩ := C14_skips h
  exact ⟨n, h1⟩

theorem scanVersionNumber_par {c : Cur} : Out.Par (scanVersionNumber opts c) (fun r => ∃ d, c.buf = d ++ r.2.buf ∧ (∀ b ∈ d, IsDigit b) ∧
    d ≠ [] ∧ decimal d ≤ 255 ∧ r.1 = decimal d ∧ ∀ b t, r.2.buf = b :: t → ¬ IsDigit b) := by
  unfold scanVersionNumber
  refine (takeWhileLen_sat (P := True) c.buf).par.bind ?_
  rintro n ⟨h1, h2, h3⟩
  rw [atoiU8_eq]
  split
  · rename_i h; simp
  · rename_i v h
    split at h
    · rename_i hd
      refine adv_par.bind ?_
      rintro _ rfl
      simp only [Option.some.injEq] at h
      subst h
      simp only [Out.Par.ok]
      refine ⟨c.buf.take n, (List.take_append_drop _ _).symm, fun b hb => isDigit_iff.1 (h2 b hb), hd.1, by omega, rfl, ?_⟩
      intro b t hb hd
      have : c.buf[n]? = some b := by
        have : (c.buf.drop n)[0]? = some b := by rw [hb]; rfl
        simpa using this
      have := h3 b this
      rw [isDigit_iff.2 hd] at this
      cases this
    · cases h

theorem white_iff {s : Str} : White s ↔ isWhiteSpace s = true := by
  unfold White isWhiteSpace
  rw [Bool.or_eq_true, atBreak_iff, isBlank_iff]
  constructor
  · rintro (⟨t, h | h⟩ | h)
    · exact .inl ⟨_, t, h, .inl rfl⟩
    · exact .inl ⟨_, t, h, .inr rfl⟩
    · exact .inr h
  · rintro (⟨b, t, rfl, rfl | rfl⟩ | h)
    · exact .inl ⟨t, .inl rfl⟩
    · exact .inl ⟨t, .inr rfl⟩
    · exact .inr h

theorem utf8_of_valid {u : Str} (h : validUtf8 u = true) : ∃ l, u = utf8 l := (validUtf8_iff u).1 h

theorem scanTagHandle_excl {c : Cur} : Out.Par (scanTagHandle opts c) (fun _ => ∃ t, c.buf = b! '!' :: t) := by
  unfold scanTagHandle
  refine .skip fun _ => ?_
  cases c.buf with
  | nil => simp
  | cons b t =>
    simp only
    split
    · simp
    · rename_i h
      intro r _
      simp only [ne_eq, Decidable.not_not] at h
      exact ⟨t, by rw [h]⟩

theorem scanTagDirective_par {c : Cur} : Out.Par (scanTagDirective opts c) (fun r => ∃ h s w n p, c.buf = h ++ s ∧ HandleAt h s ∧
    (∃ t, s = 0x20 :: t ∨ s = 0x09 :: t) ∧ Skips false s n (w ++ r.2.buf) ∧ PercentDecode false w (utf8 p) ∧ White r.2.buf ∧
    r.1 = .TagDirective h (utf8 p)) := by
  unfold scanTagDirective
  have hp := scanTagHandle_excl (opts := opts) (c := c)
  have hq : Out.Par (scanTagHandle opts c) (fun r => ∀ h n, r.1 = some (h, n) → HandleAt h.inner (c.buf.drop n) ∧ c.buf.take n = h.inner ∨
      (h = .Primary [b! '!'] ∧ n = 1 ∧ ∃ t, c.buf = b! '!' :: t)) := by
    intro r hr
    obtain ⟨t, ht⟩ := hp _ hr
    obtain ⟨buf, m⟩ := c
    simp only at ht
    subst ht
    have := scanTagHandle_par _ hr
    intro h n hrn
    simp only [hrn] at this
    have nm : (∃ name s, t = name ++ b! '!' :: s ∧ (∀ b ∈ name, IsAlnum b) ∧ n = name.length + 2 ∧ h.inner = b! '!' :: (name ++ [b! '!'])) →
        HandleAt h.inner ((b! '!' :: t).drop n) ∧ (b! '!' :: t).take n = h.inner := by
      rintro ⟨name, s, rfl, h1, rfl, h2⟩
      rw [h2]
      refine ⟨.named h1, ?_⟩
      have : (b! '!' :: (name ++ b! '!' :: s)) = b! '!' :: (name ++ [b! '!']) ++ s := by simp
      rw [this, List.take_left']
      simp
    cases h with
    | Primary p =>
      obtain ⟨rfl, -, rfl⟩ := this
      exact .inr ⟨rfl, rfl, t, rfl⟩
    | Secondary p => exact .inl (nm this)
    | Named p => exact .inl (nm this)
  refine hq.bind ?_
  rintro ⟨r, m⟩ h
  cases r with
  | none => simp
  | some hn =>
    obtain ⟨h', n⟩ := hn
    simp only
    refine skip_par.bind ?_
    rintro _ rfl
    refine .skip fun _ => ?_
    refine (requireBlank_sat (P := True) _).par.bind ?_
    rintro _ hb
    refine eatWs_par.bind ?_
    rintro c2 ⟨k, hk⟩
    refine scanTagUri_par.bind ?_
    rintro ⟨u, c3⟩ ⟨w, hw1, hw2, -, hw4⟩
    refine (requireWhiteSpace_sat (P := True) _).par.bind ?_
    rintro _ hws
    simp only [Out.Par.ok]
    simp only at hb hk hw1 hw2 hw4 hws
    obtain ⟨p, rfl⟩ := utf8_of_valid hw4
    have hbl : ∃ t, c.buf.drop n = 0x20 :: t ∨ c.buf.drop n = 0x09 :: t := by
      obtain ⟨b, t, h1, rfl | rfl⟩ := isBlank_iff.1 hb
      · exact ⟨t, .inl h1⟩
      · exact ⟨t, .inr h1⟩
    rw [hw1] at hk
    refine ⟨h'.inner, c.buf.drop n, w, k, p, ?_, ?_, hbl, hk, hw2, white_iff.2 hws, rfl⟩
    · rcases h h' n rfl with ⟨-, h2⟩ | ⟨rfl, rfl, t, ht⟩
      · rw [← h2, List.take_append_drop]
      · rw [ht]; rfl
    · rcases h h' n rfl with ⟨h1, -⟩ | ⟨rfl, rfl, t, ht⟩
      · exact h1
      · obtain ⟨u, h1 | h1⟩ := hbl
        · rw [h1]; exact primary_at (name := []) (by simp) (by decide) (by decide)
        · rw [h1]; exact primary_at (name := []) (by simp) (by decide) (by decide)

theorem directiveToken_par {t : Str} {m : MStats} :
    Out.Par (Scan.directiveToken opts ⟨b! '%' :: t, m⟩) (fun r => DirectiveText (b! '%' :: t) r.1 r.2.buf) := by
  unfold Scan.directiveToken
  refine .skip fun _ => ?_
  simp only [List.drop_succ_cons, List.drop_zero]
  have hy : (bytes! "%YAML" : Str) = b! '%' :: bytes! "YAML" := by decide +kernel
  have ht : (bytes! "%TAG" : Str) = b! '%' :: bytes! "TAG" := by decide +kernel
  unfold DirectiveKind.new
  split
  · rename_i h
    obtain ⟨s, rfl⟩ := List.isPrefixOf_iff_prefix.1 h
    simp only [Out.ok_bind]
    refine adv_par.bind ?_
    rintro _ rfl
    simp only [scanDirective]
    refine eatWs_par.bind ?_
    rintro c1 ⟨n, hn⟩
    refine scanVersionNumber_par.bind ?_
    rintro ⟨v, c2⟩ ⟨d, h1, h2, h3, h4, h5, -⟩
    refine .skip fun _ => ?_
    refine (requireDot_sat (P := True) _).par.bind ?_
    rintro _ hdot
    obtain ⟨u, hu⟩ := startsWith_iff.1 hdot
    refine adv_par.bind ?_
    rintro _ rfl
    refine scanVersionNumber_par.bind ?_
    rintro ⟨v', c3⟩ ⟨e, g1, g2, g3, g4, g5, g6⟩
    simp only [Out.Par.ok]
    have g1' : c2.buf.drop 1 = e ++ c3.buf := g1
    have h1' : c1.buf = d ++ c2.buf := h1
    rw [hu, List.drop_succ_cons, List.drop_zero] at g1'
    simp only at h5 g5 g6 hn
    subst h5 g5
    rw [show (b! '%' :: (bytes! "YAML" ++ s)) = bytes! "%YAML" ++ s by rw [hy]; rfl]
    refine .version (n := n) ?_ h2 g2 h3 g3 g6 h4 g4
    rw [h1', hu, g1'] at hn
    have : (List.drop (1 + DirectiveKind.Version.len) (b! '%' :: (bytes! "YAML" ++ s))) = s := by
      simp [DirectiveKind.len]
    rw [this] at hn
    exact hn
  · split
    · rename_i h
      obtain ⟨s, rfl⟩ := List.isPrefixOf_iff_prefix.1 h
      simp only [Out.ok_bind]
      refine adv_par.bind ?_
      rintro _ rfl
      simp only [scanDirective]
      refine eatWs_par.bind ?_
      rintro c1 ⟨n, hn⟩
      refine scanTagDirective_par.mono ?_
      rintro ⟨tok, c2⟩ ⟨h, s', w, n', p, h1, h2, h3, h4, h5, h6, h7⟩
      simp only at h1 h2 h3 h4 h5 h6 h7 hn ⊢
      rw [show (b! '%' :: (bytes! "TAG" ++ s)) = bytes! "%TAG" ++ s by rw [ht]; rfl, h7]
      have : (List.drop (1 + DirectiveKind.Tag.len) (b! '%' :: (bytes! "TAG" ++ s))) = s := by
        simp [DirectiveKind.len]
      rw [this, h1] at hn
      exact .tag hn h2 h3 h4 h5 h6
    · simp

theorem Spec.Skips.around {comments : Bool} {s u r : Str} {n : Nat} (h : Skips comments s n u) (hA : Around s r) (hl : r.length ≤ u.length) :
    ∃ p, s = p ++ u ∧ Around u r := by
  obtain ⟨p, hp⟩ := h.suffix
  exact ⟨p, hp, hA.suffix hp hl⟩

theorem Around.to {s r u : Str} (hA : Around s r) {p : Str} (hs : s = p ++ u) (hl : r.length ≤ u.length) : Around s u := by
  have hA' := hA.suffix hs hl
  obtain ⟨⟨q, hq, hqa⟩, hr⟩ := hA
  obtain ⟨⟨q', rfl, hqa'⟩, -⟩ := hA'
  refine ⟨⟨p, hs, ?_⟩, ?_⟩
  · have : q = p ++ q' := by
      rw [← List.append_assoc] at hs
      rw [hs] at hq
      exact (List.append_inj' hq rfl).1.symm
    rw [this] at hqa
    exact fun x hx => hqa x (by simp [hx])
  · cases q' with
    | nil => exact hr
    | cons b q' =>
      rintro x y h
      simp at h
      exact .inl (h.1 ▸ hqa' b (by simp))

theorem white_headOk {s : Str} (h : White s) : HeadOk s := by
  obtain ⟨b, t, rfl, hb⟩ := white_head (white_iff.1 h)
  rintro x y hxy
  simp at hxy
  rw [← hxy.1]
  rcases hb with rfl | rfl | rfl | rfl | rfl | rfl <;> decide

/-- A directive that is next is scanned, if it is ASCII up to the end. -/
theorem directiveToken_ok (hx : opts.extendable = false) {s r : Str} {tok : Token} {m : MStats} (h : DirectiveText s tok r) (hA : Around s r) :
    ∃ m', Scan.directiveToken opts ⟨s, m⟩ = .ok (tok, ⟨r, m'⟩) := by
  have hy : (bytes! "%YAML" : Str) = b! '%' :: bytes! "YAML" := by decide +kernel
  have ht : (bytes! "%TAG" : Str) = b! '%' :: bytes! "TAG" := by decide +kernel
  cases h with
  | @version s d e _ n hs hd he hdn hen hr hd' he' =>
    unfold Scan.directiveToken
    obtain ⟨q, hq⟩ := hs.suffix
    have hl : r.length ≤ (d ++ b! '.' :: (e ++ r)).length := by simp; omega
    have hA1 : Around s r := hA.suffix rfl (by rw [hq]; simp at hl ⊢; omega)
    have hA2 := hA1.suffix hq hl
    have hA3 : Around (b! '.' :: (e ++ r)) r := hA2.suffix rfl (by simp; omega)
    have hA4 : Around (e ++ r) r := hA3.tail (by simp)
    have hdA : HeadOk (b! '.' :: (e ++ r)) := by rintro x y h; simp at h; rw [← h.1]; decide
    have hdig : ∀ {l : Str}, (∀ b ∈ l, IsDigit b) → Ascii l := fun h b hb => isDigit_ascii (isDigit_iff.2 (h b hb))
    have heA : HeadOk (e ++ r) := by
      cases e with
      | nil => exact absurd rfl hen
      | cons x e => rintro a b h; simp at h; exact .inl (h.1 ▸ hdig he x (by simp))
    have hkind : DirectiveKind.new (List.drop 1 (bytes! "%YAML" ++ s)) = .ok .Version := by
      rw [hy]
      unfold DirectiveKind.new
      rw [if_pos]
      simp
    have hadv : (⟨bytes! "%YAML" ++ s, m⟩ : Cur).adv (1 + DirectiveKind.Version.len) = .ok ⟨s, m.update 5 0 5⟩ := by
      unfold Cur.adv
      rw [if_pos]
      · simp [DirectiveKind.len]
      · exact hA.boundary (by
          have : (bytes! "%YAML" : Str).length = 5 := by decide +kernel
          have := congrArg List.length hq
          simp [DirectiveKind.len] at this hl ⊢; omega)
    simp only [cache_whole opts hx, Out.ok_bind, hkind, hadv]
    simp only [scanDirective]
    obtain ⟨m1, he1⟩ := eatWs_around (m := m.update 5 0 5) hx hs (hA1.to hq hl)
    rw [he1]
    simp only [Out.ok_bind]
    rw [scanVersionNumber_eq hx (fun b hb => isDigit_iff.2 (hd b hb)) (by rintro x y h; simp at h; rw [← h.1]; decide) hdA,
      if_pos ⟨hdn, by omega⟩]
    simp only [Out.ok_bind, cache_whole opts hx, requireDot, ↓reduceIte]
    rw [show ∀ m, (⟨b! '.' :: (e ++ r), m⟩ : Cur).adv 1 = .ok ⟨e ++ r, m.update 1 0 1⟩ from fun m => hA3.adv_one (by simp)]
    simp only [Out.ok_bind]
    rw [scanVersionNumber_eq hx (fun b hb => isDigit_iff.2 (he b hb)) ?_ hA.head, if_pos ⟨hen, by omega⟩]
    · exact ⟨_, rfl⟩
    · intro b t hb
      cases hdg : isDigit b with
      | false => rfl
      | true => exact absurd (isDigit_iff.1 hdg) (hr b t hb)
  | @tag s s' h w _ n n' pfx hs hh hb hs' hd hr =>
    unfold Scan.directiveToken
    obtain ⟨q, hq⟩ := hs.suffix
    obtain ⟨q', hq'⟩ := hs'.suffix
    have hl2 : r.length ≤ s'.length := by rw [hq']; simp; omega
    have hl : r.length ≤ (h ++ s').length := by simp; omega
    have hA1 : Around s r := hA.suffix rfl (by rw [hq]; simp at hl ⊢; omega)
    have hA2 := hA1.suffix hq hl
    have hA3 : Around s' r := hA2.suffix rfl hl2
    have hkind : DirectiveKind.new (List.drop 1 (bytes! "%TAG" ++ s)) = .ok .Tag := by
      rw [ht]
      unfold DirectiveKind.new
      rw [if_neg, if_pos]
      · simp
      · intro h
        obtain ⟨u, hu⟩ := List.isPrefixOf_iff_prefix.1 h
        simp at hu
    have hadv : (⟨bytes! "%TAG" ++ s, m⟩ : Cur).adv (1 + DirectiveKind.Tag.len) = .ok ⟨s, m.update 4 0 4⟩ := by
      unfold Cur.adv
      rw [if_pos]
      · simp [DirectiveKind.len]
      · exact hA.boundary (by
          have : (bytes! "%TAG" : Str).length = 4 := by decide +kernel
          have := congrArg List.length hq
          simp [DirectiveKind.len] at this hl ⊢; omega)
    simp only [cache_whole opts hx, Out.ok_bind, hkind, hadv]
    simp only [scanDirective]
    obtain ⟨m1, he1⟩ := eatWs_around (m := m.update 4 0 4) hx hs (hA1.to hq hl)
    rw [he1]
    simp only [Out.ok_bind]
    unfold scanTagDirective
    obtain ⟨t, hbt⟩ := hb
    have hws : isWhiteSpace s' = true := by
      rcases hbt with rfl | rfl <;> simp [isWhiteSpace, isBlank, startsWith]
    have hbl : isBlank s' = true := by
      rcases hbt with rfl | rfl <;> simp [isBlank, startsWith]
    have hhd : ∃ h' m2, scanTagHandle opts ⟨h ++ s', m1⟩ = .ok (some (h', h.length), m2) ∧ h'.inner = h := by
      cases hh with
      | @named name _ hn =>
        obtain ⟨h', m2, g1, g2, -⟩ := scanTagHandle_named hx (s := s') (m := m1) (fun b hb => isAlnum_iff.2 (hn b hb))
        refine ⟨h', m2, ?_, g2⟩
        simp only [List.cons_append, List.append_assoc, List.nil_append, List.length_cons, List.length_append, List.length_nil]
        exact g1
      | primary hh' =>
        have := scanTagHandle_primary (m := m1) hx (.primary hh') (by
          intro name hn heq
          rcases hbt with rfl | rfl <;> · have := hn _ (by rw [← heq]; exact List.mem_cons_self); revert this; decide)
        rw [if_pos hws] at this
        exact ⟨_, _, this, rfl⟩
    obtain ⟨h', m2, g1, g2⟩ := hhd
    rw [g1]
    simp only [Out.ok_bind]
    have hskip : Cur.skip ⟨h ++ s', m2⟩ h.length = .ok ⟨s', m2⟩ := by
      unfold Cur.skip
      rw [if_pos (hA2.boundary (by simp; omega))]
      simp
    rw [hskip]
    simp only [Out.ok_bind]
    have hreq : requireBlank s' = .ok () := by
      rcases hbt with rfl | rfl <;> simp [requireBlank, isBlank, startsWith]
    rw [hreq]
    simp only [Out.ok_bind]
    obtain ⟨m3, he3⟩ := eatWs_around (m := m2) hx hs' (hA3.to hq' (by simp))
    rw [he3]
    simp only [Out.ok_bind]
    obtain ⟨m4, hu⟩ := scanTagUri_eq (m := m3) hx (white_headOk hr) (white_ends (white_iff.1 hr)) hd
    rw [hu]
    have hreq' : requireWhiteSpace r = .ok () := by
      have := white_iff.1 hr
      cases r with
      | nil => simp [isWhiteSpace, isBlank, isBreak, startsWith] at this
      | cons b t => simp only [requireWhiteSpace, this, ↓reduceIte]
    simp only [Out.ok_bind, hreq', g2, cache_whole opts hx]
    exact ⟨m4, rfl⟩

/-! ### Steps -/

theorem step_anchor (hx : opts.extendable = false) {s : SS} {isAlias : Bool} {t : Str} (hk : ¬ KeyDue s) (hc : Comes s (anchorMark isAlias :: t)) :
    (∀ tok c, scanAnchor opts isAlias ⟨anchorMark isAlias :: t, {}⟩ = .ok (tok, c) → isBoundary (anchorMark isAlias :: t) (t.length + 1 - c.buf.length) = true →
      ∃ s', Scan.scanNextToken opts s = (.ok (), s') ∧ s'.buf = c.buf ∧ Pushes s s' (.Token tok)) ∧
    (∀ e, scanAnchor opts isAlias ⟨anchorMark isAlias :: t, {}⟩ = .err e → ∃ s', Scan.scanNextToken opts s = (.err e, s')) := by
  have := step_finish hx hk hc (by cases isAlias <;> decide) (f := scanAnchor opts isAlias) (g := fun r => (.Token r.1, r.2)) (by
    intro s1 h1
    have : Scan.dispatch s1.sc.context s1.sc.stats.column (anchorMark isAlias :: t) = .anchor := by
      unfold Scan.dispatch anchorMark
      cases isAlias <;> simp [startsWith, startsMarker]
    rw [this]
    simp only [Scan.run, Scan.fetchAnchor]
    rw [bind_run (m := Scan.get) (a := s1) (s1 := s1) rfl, h1]
    cases isAlias <;> rfl)
  exact ⟨fun tok c h hb => this.1 (tok, c) h hb, this.2⟩

theorem step_tag (hx : opts.extendable = false) {s : SS} {t : Str} (hk : ¬ KeyDue s) (hc : Comes s (b! '!' :: t)) :
    (∀ tok c, scanNodeTag opts ⟨b! '!' :: t, {}⟩ = .ok (tok, c) → isBoundary (b! '!' :: t) (t.length + 1 - c.buf.length) = true →
      ∃ s', Scan.scanNextToken opts s = (.ok (), s') ∧ s'.buf = c.buf ∧ Pushes s s' (.Token tok)) ∧
    (∀ e, scanNodeTag opts ⟨b! '!' :: t, {}⟩ = .err e → ∃ s', Scan.scanNextToken opts s = (.err e, s')) := by
  have := step_finish hx hk hc (by decide) (f := scanNodeTag opts) (g := fun r => (.Token r.1, r.2)) (by
    intro s1 h1
    have : Scan.dispatch s1.sc.context s1.sc.stats.column (b! '!' :: t) = .tag := by
      unfold Scan.dispatch
      simp [startsWith, startsMarker]
    rw [this]
    rfl)
  exact ⟨fun tok c h hb => this.1 (tok, c) h hb, this.2⟩

theorem step_quoted (hx : opts.extendable = false) {s : SS} {single : Bool} {t : Str} (hk : ¬ KeyDue s) (hc : Comes s (quoteMark single :: t)) :
    (∀ tok c, scanFlow opts single ⟨quoteMark single :: t, {}⟩ = .ok (tok, c) → isBoundary (quoteMark single :: t) (t.length + 1 - c.buf.length) = true →
      ∃ s', Scan.scanNextToken opts s = (.ok (), s') ∧ s'.buf = c.buf ∧ Pushes s s' tok) ∧
    (∀ e, scanFlow opts single ⟨quoteMark single :: t, {}⟩ = .err e → ∃ s', Scan.scanNextToken opts s = (.err e, s')) := by
  have := step_finish hx hk hc (by cases single <;> decide) (f := scanFlow opts single) (g := fun r => (r.1, r.2)) (by
    intro s1 h1
    have : Scan.dispatch s1.sc.context s1.sc.stats.column (quoteMark single :: t) = .quoted := by
      unfold Scan.dispatch quoteMark
      cases single <;> simp [startsWith, startsMarker]
    rw [this]
    simp only [Scan.run, Scan.fetchFlowScalar]
    rw [bind_run (m := Scan.get) (a := s1) (s1 := s1) rfl, h1]
    cases single <;> rfl)
  exact ⟨fun tok c h hb => this.1 (tok, c) h hb, this.2⟩

theorem step_directive (hx : opts.extendable = false) {s : SS} {t : Str} (hk : ¬ KeyDue s) (hc : Comes s (b! '%' :: t))
    (hcol : ∃ p, s.buf = p ++ b! '%' :: t ∧ (posAfter s.sc.stats p).column = 0) :
    (∀ tok c, Scan.directiveToken opts ⟨b! '%' :: t, {}⟩ = .ok (tok, c) → isBoundary (b! '%' :: t) (t.length + 1 - c.buf.length) = true →
      ∃ s', Scan.scanNextToken opts s = (.ok (), s') ∧ s'.buf = c.buf ∧ Pushes s s' (.Token tok)) ∧
    (∀ e, Scan.directiveToken opts ⟨b! '%' :: t, {}⟩ = .err e → ∃ s', Scan.scanNextToken opts s = (.err e, s')) := by
  have hh : HeadOk (b! '%' :: t) := by rintro x y h; simp at h; rw [← h.1]; decide
  obtain ⟨s1, l, h1, h2, h3, h4, h5, p, h6, h7⟩ := step_comes hx hk hc hh (by simp)
  obtain ⟨p', hp', hcol⟩ := hcol
  have : p = p' := by
    rw [h6] at hp'
    exact List.append_cancel_right hp'
  subst this
  have hd : Scan.dispatch s1.sc.context s1.sc.stats.column (b! '%' :: t) = .directive := by
    unfold Scan.dispatch
    rw [h7, hcol]
    simp [startsWith]
  rw [hd] at h1
  rw [h1]
  simp only [Scan.run, Scan.fetchDirective]
  constructor
  · intro tok c hr hbd
    have : Scan.sub {} (Scan.directiveToken opts) s1 = (.ok (tok, c), s1) := by
      simp [Scan.sub, bind, SO.bind, Scan.get, SO.get, SO.lift, h2, hr]
    rw [bind_run this]
    simp only
    rw [bind_run (m := Scan.unrollIndent none) (a := ()) (s1 := (Scan.unrollIndent none s1).2) rfl]
    rw [bind_run (removeSavedKey_run (by exact h3))]
    have hb1 : (Scan.unrollIndent none s1).2.buf = b! '%' :: t := h2
    have hbd' : isBoundary s1.buf (s1.buf.length - c.buf.length) = true := by rw [h2]; exact hbd
    simp only [bind, SO.bind, Scan.get, SO.get, Scan.upd, SO.modify, Scan.commit, Scan.push, Scan.enqueue, Scan.unrollIndent, hbd', ↓reduceIte]
    refine ⟨_, rfl, rfl, l ++ List.replicate (s1.sc.context.indentDecrement none).2 ⟨.Token .BlockEnd, s1.sc.stats.read⟩, ?_, ?_⟩
    · unfold pushedBy
      simp only [h4]
      rw [List.append_assoc, List.append_assoc, List.drop_left, List.append_assoc]
    · intro e he
      rcases List.mem_append.1 he with he | he
      · exact h5 e he
      · rw [List.eq_of_mem_replicate he]
  · intro e he
    have : Scan.sub {} (Scan.directiveToken opts) s1 = (.err e, s1) := by
      simp [Scan.sub, bind, SO.bind, Scan.get, SO.get, SO.lift, h2, he]
    rw [bind_run_err this]
    exact ⟨s1, rfl⟩

end Yary
