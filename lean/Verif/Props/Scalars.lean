import Verif.Proof.Scan.Written
import Verif.Props.Keys

/-! # What names, directives, tags and scalars denote

The theorems range over the states of a scanner, `s`, between two tokens: `Comes s text` says that `text`
is what comes next. A step of the scanner is `Scan.scanNextToken`. -/

namespace Yary

open Spec

variable {opts : SFlags} {s s' : SS} {text r : Str} {tok : Token} {doc : List Char}

/-! ### Between two tokens, in the examples -/

/-- At the start of a text that starts with no white space. -/
theorem fresh_comes (opts : SFlags) {b : Byte} {t : Str} (hb : NoBrk b ∧ b ≠ 0x20 ∧ b ≠ 0x09 ∧ b ≠ 0x23) :
    Comes (steps opts 1 ⟨{}, b :: t, []⟩) (b :: t) ∧ ¬ KeyDue (steps opts 1 ⟨{}, b :: t, []⟩) := by
  refine ⟨⟨rfl, ⟨0, ?_⟩, [], rfl, fun x hx => by cases hx⟩, ?_⟩
  · refine .done ?_ ?_ (not_break_of hb.1) ?_
    · rintro x h; exact hb.2.1 (List.cons.inj h).1
    · rintro x h; exact hb.2.2.1 (List.cons.inj h).1
    · rintro - x h; exact hb.2.2.2 (List.cons.inj h).1
  · rintro ⟨k, hk, h⟩
    have : (steps opts 1 ⟨{}, b :: t, []⟩).sc.key = some ⟨.No, {}⟩ ∨ (steps opts 1 ⟨{}, b :: t, []⟩).sc.key = none ∨
      (steps opts 1 ⟨{}, b :: t, []⟩).sc.key = some ⟨.Yes, {}⟩ := by
      first | exact .inl rfl | exact .inr (.inl rfl) | exact .inr (.inr rfl)
    rcases this with g | g | g <;> rw [g] at hk <;> cases hk <;> cases h

/-! ### C26 -/

/-- **C26**: after `&` or `*`, letters and digits, and then one of the characters that may follow, are an
anchor or an alias with this name. -/
theorem C26_accepts (hx : opts.extendable = false) (hk : ¬ KeyDue s) (hc : Comes s text) (ht : AnchorText text tok r) :
    ∃ s', Scan.scanNextToken opts s = (.ok (), s') ∧ s'.buf = r ∧ Pushes s s' (.Token tok) := by
  have main : ∀ {isAlias : Bool} {t : Str}, text = anchorMark isAlias :: t →
      ∃ s', Scan.scanNextToken opts s = (.ok (), s') ∧ s'.buf = r ∧ Pushes s s' (.Token tok) := by
    rintro isAlias t rfl
    obtain ⟨⟨m, h1⟩, h2⟩ := scanAnchor_ok hx (m := {}) ht
    refine (step_anchor hx hk hc).1 tok _ h1 (h2.boundary ?_)
    obtain ⟨⟨p, hp, -⟩, -⟩ := h2
    have := congrArg List.length hp
    simp at this ⊢
    omega
  cases ht with
  | anchor => exact main (isAlias := false) rfl
  | alias => exact main (isAlias := true) rfl

/-- **C26**, otherwise: what starts with `&` or `*` and is neither is an error. -/
theorem C26_rejects (hx : opts.extendable = false) (hk : ¬ KeyDue s) (hc : Comes s (utf8 doc))
    (hs : ∃ t, utf8 doc = b! '&' :: t ∨ utf8 doc = b! '*' :: t) (hn : ∀ tok r, ¬ AnchorText (utf8 doc) tok r) :
    ∃ e s', Scan.scanNextToken opts s = (.err e, s') := by
  obtain ⟨t, ht⟩ := hs
  obtain ⟨isAlias, ht⟩ : ∃ isAlias, utf8 doc = anchorMark isAlias :: t := by
    rcases ht with h | h
    · exact ⟨false, h⟩
    · exact ⟨true, h⟩
  have hv : validUtf8 (utf8 doc) = true := (validUtf8_iff _).2 ⟨doc, rfl⟩
  rw [ht] at hc hn hv
  obtain ⟨name, r, rfl, h1, h2⟩ := takeWhile_split t
  have hrv : HeadOk r := by
    have : validUtf8 r = true := by
      have : Ascii (anchorMark isAlias :: name) := .cons (by cases isAlias <;> decide) fun x hx => isAlnum_ascii (h1 x hx)
      rw [← List.cons_append, validUtf8_append (validUtf8_ascii this)] at hv
      exact hv
    obtain ⟨l, rfl⟩ := utf8_of_valid this
    exact headOk_utf8 l
  have := scanAnchor_eq hx (isAlias := isAlias) (x := anchorMark isAlias) (m := {}) (by cases isAlias <;> decide) h1 h2 hrv
  have herr : ∃ e, scanAnchor opts isAlias ⟨anchorMark isAlias :: (name ++ r), {}⟩ = .err e := by
    rw [this]
    split
    · exact ⟨_, rfl⟩
    · rename_i hne
      cases hce : checkAnchorEnd r with
      | ok u =>
        exfalso
        rw [if_neg hne, hce] at this
        exact hn _ _ (scanAnchor_par _ this)
      | err e => exact ⟨e, rfl⟩
      | panic => unfold checkAnchorEnd at hce; repeat' split at hce
                 all_goals cases hce
      | diverge => unfold checkAnchorEnd at hce; repeat' split at hce
                   all_goals cases hce
  obtain ⟨e, he⟩ := herr
  obtain ⟨s', h⟩ := (step_anchor hx hk hc).2 e he
  exact ⟨e, s', h⟩

/-- **C26**, the other way round: the anchors and aliases pushed are written there. -/
theorem C26_means (h : Reach true opts (utf8 doc) s) (hs : Scan.scanNextToken opts s = (.ok (), s'))
    {e : TokenEntry} {name : Str} (he : e ∈ pushedBy s s') (ht : e.wrap = .Token (.Anchor name) ∨ e.wrap = .Token (.Alias name)) :
    ∃ n text tok, e.wrap = .Token tok ∧ Skips true s.buf n text ∧ AnchorText text tok s'.buf := by
  obtain ⟨n, s1, c, h1, -, h2, h3, -⟩ := step_scans (reach_before ((validUtf8_iff _).2 ⟨doc, rfl⟩) h) hs he
    (by rintro ⟨g, -⟩; rcases ht with ht | ht <;> rw [ht] at g <;> simp [isNode, MaybeToken.marker, Marker.ofToken] at g)
  obtain ⟨tok, htok, hno⟩ : ∃ tok, e.wrap = .Token tok ∧ (tok = .Anchor name ∨ tok = .Alias name) := by
    rcases ht with ht | ht
    · exact ⟨_, ht, .inl rfl⟩
    · exact ⟨_, ht, .inr rfl⟩
  refine ⟨n, s1.buf, tok, htok, h1, ?_⟩
  rw [htok] at h2
  rw [h3]
  rcases h2.named with g | g | ⟨w, x, u, rest, g, -⟩ | g | ⟨v, st, g⟩
  · exact g
  · generalize s1.buf = z at g
    exfalso
    rcases hno with rfl | rfl <;> cases g
  · exfalso
    rcases hno with rfl | rfl <;> cases g
  · generalize s1.buf = z at g
    exfalso
    rcases hno with rfl | rfl <;> cases g
  · exfalso
    rcases hno with rfl | rfl <;> cases g

/-- The anchor in `&a1 x`. -/
example : Comes (steps {} 1 ⟨{}, bytes! "&a1 x", []⟩) (bytes! "&a1 x") ∧ ¬ KeyDue (steps {} 1 ⟨{}, bytes! "&a1 x", []⟩) ∧
    AnchorText (bytes! "&a1 x") (.Anchor (bytes! "a1")) (bytes! " x") := by
  refine ⟨(fresh_comes {} (by decide)).1, (fresh_comes {} (by decide)).2, ?_⟩
  refine .anchor (name := bytes! "a1") (by decide) ?_ rfl (by decide)
  intro b hb
  rw [← isAlnum_iff]
  revert b
  decide

/-- `&a:x` is no anchor. -/
example : ∀ tok r, ¬ AnchorText (utf8 "&a:x".toList) tok r := by
  have : utf8 "&a:x".toList = bytes! "&a:x" := by decide +kernel
  rw [this]
  rintro tok r h
  have := scanAnchor_ok (opts := {}) rfl (isAlias := false) (m := {}) (t := bytes! "a:x") h
  obtain ⟨⟨m, h⟩, -⟩ := this
  revert h
  have : scanAnchor {} false ⟨anchorMark false :: bytes! "a:x", {}⟩ = .err .InvalidAnchorName := by decide +kernel
  rw [this]
  simp

/-! ### C25 -/

/-- **C25**: a directive at the start of a line: `%YAML` with two numbers up to 255, or `%TAG` with a handle
and a prefix, gives the token that says so. -/
theorem C25_accepts (hx : opts.extendable = false) (hk : ¬ KeyDue s) (hc : Comes s text)
    (hcol : ∃ p, s.buf = p ++ text ∧ (posAfter s.sc.stats p).column = 0) (ht : DirectiveText text tok r) (ha : AsciiTo text r) :
    ∃ s', Scan.scanNextToken opts s = (.ok (), s') ∧ s'.buf = r ∧ Pushes s s' (.Token tok) := by
  obtain ⟨m, h⟩ := directiveToken_ok hx (m := {}) ht ha.around
  obtain ⟨t, rfl⟩ : ∃ t, text = b! '%' :: t := by cases ht <;> exact ⟨_, rfl⟩
  refine (step_directive hx hk hc hcol).1 tok _ h (ha.around.boundary ?_)
  obtain ⟨⟨p, hp, -⟩, -⟩ := ha
  have := congrArg List.length hp
  simp at this ⊢
  omega

/-- **C25**, otherwise: an ASCII text that starts with `%`, at the start of a line, and is no directive is an error. -/
theorem C25_rejects (hx : opts.extendable = false) (hk : ¬ KeyDue s) (hc : Comes s text)
    (hcol : ∃ p, s.buf = p ++ text ∧ (posAfter s.sc.stats p).column = 0) (hs : ∃ t, text = b! '%' :: t)
    (ha : ∀ b ∈ text, b < 128) (hp : PercentsOk text) (hn : ∀ tok r, ¬ DirectiveText text tok r) :
    ∃ e s', Scan.scanNextToken opts s = (.err e, s') := by
  obtain ⟨t, rfl⟩ := hs
  rcases (directiveToken_sat (P := False) (opts := opts) (m := {}) (.inr ha) (.inr hp)).total with ⟨⟨tok, c⟩, h⟩ | ⟨e, h⟩
  · exact absurd (directiveToken_par _ h) (hn _ _)
  · obtain ⟨s', h'⟩ := (step_directive hx hk hc hcol).2 e h
    exact ⟨e, s', h'⟩

/-- **C25**, the version directive whose numbers do not fit: an error. -/
theorem C25_overflow (hx : opts.extendable = false) (hk : ¬ KeyDue s) {w d e : Str} {n : Nat} (hc : Comes s (bytes! "%YAML" ++ w))
    (hcol : ∃ p, s.buf = p ++ (bytes! "%YAML" ++ w) ∧ (posAfter s.sc.stats p).column = 0) (ha : ∀ b ∈ w, b < 128) (hp : PercentsOk w)
    (hw : Skips false w n (d ++ b! '.' :: (e ++ r))) (hd : ∀ b ∈ d, IsDigit b) (he : ∀ b ∈ e, IsDigit b)
    (hr : ∀ b t, r = b :: t → ¬ IsDigit b) (hbig : d = [] ∨ e = [] ∨ 255 < decimal d ∨ 255 < decimal e) :
    ∃ e s', Scan.scanNextToken opts s = (.err e, s') := by
  have dig : ∀ {a b x y : Str}, (∀ z ∈ a, IsDigit z) → (∀ z ∈ b, IsDigit z) → (∀ z t, x = z :: t → ¬ IsDigit z) →
      (∀ z t, y = z :: t → ¬ IsDigit z) → a ++ x = b ++ y → a = b ∧ x = y := by
    intro a
    induction a with
    | nil =>
      intro b x y _ hb hx hy h
      cases b with
      | nil => exact ⟨rfl, h⟩
      | cons z b => exact absurd (hb z (by simp)) (hx z _ h)
    | cons z a ih =>
      intro b x y ha hb hx hy h
      cases b with
      | nil => exact absurd (ha z (by simp)) (hy z _ h.symm)
      | cons z' b =>
        simp only [List.cons_append, List.cons.injEq] at h
        obtain ⟨rfl, h⟩ := h
        obtain ⟨h1, h2⟩ := ih (fun q hq => ha q (by simp [hq])) (fun q hq => hb q (by simp [hq])) hx hy h
        exact ⟨by rw [h1], h2⟩
  have hdot : ¬ IsDigit (b! '.') := by rw [← isDigit_iff]; decide
  have hdots : ∀ {t : Str} (z : Byte) (t' : Str), (b! '.' :: t : Str) = z :: t' → ¬ IsDigit z := by
    intro t z t' h
    rw [← (List.cons.inj h).1]; exact hdot
  refine C25_rejects hx hk hc hcol ⟨_, rfl⟩ ?_ ?_ ?_
  · intro b hb
    replace hb := List.mem_append.1 hb
    rcases hb with hb | hb
    · revert b; decide
    · exact ha b hb
  · intro q a b t v h hv
    have : ∃ q', w = q' ++ 0x25 :: a :: b :: t ∨ hexNumber [a, b] = none := by
      simp only [List.cons_append, List.nil_append] at h
      cases q with
      | nil => simp at h; obtain ⟨rfl, rfl, -⟩ := h; exact ⟨[], .inr (by decide)⟩
      | cons q1 q => cases q with
        | nil => simp at h
        | cons q2 q => cases q with
          | nil => simp at h
          | cons q3 q => cases q with
            | nil => simp at h
            | cons q4 q => cases q with
              | nil => simp at h
              | cons q5 q =>
                simp at h
                exact ⟨q, .inl h.2.2.2.2.2⟩
    obtain ⟨q', h | h⟩ := this
    · exact hp q' a b t v h hv
    · rw [h] at hv; cases hv
  · intro tok r' h
    generalize hz : bytes! "%YAML" ++ w = z at h
    cases h with
    | version hs hd' he' hdn hen hr' h1 h2 =>
      have hw' := List.append_cancel_left hz
      rw [← hw'] at hs
      obtain ⟨-, h⟩ := hw.unique hs
      obtain ⟨rfl, hde⟩ := dig hd hd' hdots hdots h
      obtain ⟨rfl, -⟩ := dig he he' hr hr' (List.cons.inj hde).2
      rcases hbig with h | h | h | h
      · exact hdn h
      · exact hen h
      · omega
      · omega
    | tag => cases hz

/-- **C25**, the other way round: the directives pushed are written there. -/
theorem C25_means (h : Reach true opts (utf8 doc) s) (hs : Scan.scanNextToken opts s = (.ok (), s'))
    {e : TokenEntry} {tok : Token} (he : e ∈ pushedBy s s') (ht : e.wrap = .Token tok)
    (hd : (∃ a b, tok = .VersionDirective a b) ∨ ∃ h p, tok = .TagDirective h p) :
    ∃ n text, Skips true s.buf n text ∧ DirectiveText text tok s'.buf := by
  obtain ⟨n, s1, c, h1, -, h2, h3, -⟩ := step_scans (reach_before ((validUtf8_iff _).2 ⟨doc, rfl⟩) h) hs he
    (by rintro ⟨-, g1, g2⟩; rw [ht] at g1 g2
        rcases hd with ⟨_, _, rfl⟩ | ⟨_, _, rfl⟩ <;> simp [MaybeToken.marker, Marker.ofToken] at g1 g2)
  refine ⟨n, s1.buf, h1, ?_⟩
  rw [ht] at h2
  rw [h3]
  rcases h2.named with g | g | ⟨w, x, u, rest, g, -⟩ | g | ⟨v, st, g⟩
  · generalize s1.buf = z at g
    exfalso
    rcases hd with ⟨_, _, rfl⟩ | ⟨_, _, rfl⟩ <;> cases g
  · generalize s1.buf = z at g
    exfalso
    rcases hd with ⟨_, _, rfl⟩ | ⟨_, _, rfl⟩ <;> cases g
  · exfalso
    rcases hd with ⟨_, _, rfl⟩ | ⟨_, _, rfl⟩ <;> cases g
  · exact g
  · exfalso
    rcases hd with ⟨_, _, rfl⟩ | ⟨_, _, rfl⟩ <;> cases g

/-- `%YAML 1.20`, and a line break. -/
example : DirectiveText (bytes! "%YAML 1.20\n") (.VersionDirective 1 20) (bytes! "\n") ∧ AsciiTo (bytes! "%YAML 1.20\n") (bytes! "\n") := by
  constructor
  · refine .version (d := bytes! "1") (e := bytes! "20") (n := 0) (.blank (.inl rfl) (.done ?_ ?_ ?_ ?_)) ?_ ?_ (by decide) (by decide) ?_ (by decide) (by decide)
    · rintro x h; cases h
    · rintro x h; cases h
    · exact not_break_of (by decide)
    · rintro h; cases h
    · intro b hb; rw [← isDigit_iff]; revert b; decide
    · intro b hb; rw [← isDigit_iff]; revert b; decide
    · rintro b t h; rw [← isDigit_iff, ← (List.cons.inj h).1]; decide
  · exact ⟨⟨bytes! "%YAML 1.20", rfl, by decide⟩, ['\n'], by decide +kernel⟩

/-! ### C27 -/

/-- **C27**: a tag, that is a handle and a suffix of permitted characters and of `%XX`, up to a character that is
none of these, gives the token with this handle and with the suffix decoded. -/
theorem C27_accepts (hx : opts.extendable = false) (hk : ¬ KeyDue s) (hc : Comes s text) (ht : TagText text tok (utf8 doc)) :
    ∃ s', Scan.scanNextToken opts s = (.ok (), s') ∧ s'.buf = utf8 doc ∧ Pushes s s' (.Token tok) := by
  generalize hr : utf8 doc = r at ht
  have hh : HeadOk r := hr ▸ headOk_utf8 doc
  obtain ⟨t, rfl⟩ : ∃ t, text = b! '!' :: t := by cases ht with | tag hh => cases hh <;> exact ⟨_, rfl⟩
  generalize hz : b! '!' :: t = z at ht
  cases ht with
  | @tag h w _ suffix hh' hv hd hend =>
    obtain ⟨m, h1⟩ := scanNodeTag_eq hx (m := {}) hh hend hh' hd hv
    rw [← hz] at h1
    refine (step_tag hx hk hc).1 _ _ h1 ?_
    have hA : Around (b! '!' :: t) r := by
      refine ⟨⟨h ++ w, by rw [hz]; simp, ?_⟩, hh⟩
      intro b hb
      rcases List.mem_append.1 hb with hb | hb
      · cases hh' with
        | named hn =>
          simp only [List.mem_cons, List.mem_append, List.not_mem_nil, or_false] at hb
          rcases hb with rfl | hb | rfl
          · decide
          · exact isAlnum_ascii (isAlnum_iff.2 (hn b hb))
          · decide
        | primary => simp only [List.mem_singleton] at hb; subst hb; decide
      · exact hd.ascii b hb
    refine hA.boundary ?_
    obtain ⟨⟨p, hp, -⟩, -⟩ := hA
    have := congrArg List.length hp
    simp at this ⊢
    omega

/-- **C27**, otherwise: an ASCII text that starts with `!`, and is neither such a tag nor a verbatim one, is an error. -/
theorem C27_rejects (hx : opts.extendable = false) (hk : ¬ KeyDue s) (hc : Comes s text) (hs : ∃ t, text = b! '!' :: t)
    (ha : ∀ b ∈ text, b < 128) (hp : PercentsOk text) (hv : ∀ t, text ≠ bytes! "!<" ++ t) (hn : ∀ tok r, ¬ TagText text tok r) :
    ∃ e s', Scan.scanNextToken opts s = (.err e, s') := by
  obtain ⟨t, rfl⟩ := hs
  rcases (scanNodeTag_sat (P := False) (opts := opts) (m := {}) (.inr ha) (.inr hp)).total with ⟨⟨tok, c⟩, h⟩ | ⟨e, h⟩
  · rcases scanNodeTag_par _ h with ⟨w, x, s', u, h1, -⟩ | ⟨hn', hd, w, u, h1, h2, h3, h4, h5, h6⟩
    · exact absurd (by rw [h1]; rfl) (hv _)
    · obtain ⟨l, rfl⟩ := utf8_of_valid h5
      simp only at h1 h2 h4 h6
      exfalso
      refine hn (.Tag hd (utf8 l)) c.buf ?_
      rw [h1]
      refine .tag h2 ?_ h3 h4
      rw [← h1]
      rintro z hz
      exact hv z (by rw [hz]; rfl)
  · obtain ⟨s', h'⟩ := (step_tag hx hk hc).2 e h
    exact ⟨e, s', h'⟩

/-- **C27**, the other way round: the tags pushed are written there, if not verbatim. -/
theorem C27_means (h : Reach true opts (utf8 doc) s) (hs : Scan.scanNextToken opts s = (.ok (), s'))
    {e : TokenEntry} {hd sf : Str} (he : e ∈ pushedBy s s') (ht : e.wrap = .Token (.Tag hd sf)) :
    ∃ n text, Skips true s.buf n text ∧ (TagText text (.Tag hd sf) s'.buf ∨
      ∃ w x rest, hd = [] ∧ text = bytes! "!<" ++ (w ++ x :: s'.buf) ∧ s'.buf = b! '>' :: rest ∧ PercentDecode true w sf) := by
  obtain ⟨n, s1, c, h1, -, h2, h3, -⟩ := step_scans (reach_before ((validUtf8_iff _).2 ⟨doc, rfl⟩) h) hs he
    (by rintro ⟨g, -⟩; rw [ht] at g; simp [isNode, MaybeToken.marker, Marker.ofToken] at g)
  refine ⟨n, s1.buf, h1, ?_⟩
  rw [ht] at h2
  rw [h3]
  rcases h2.named with g | g | ⟨w, x, u, rest, g, g1, g2, g3, -⟩ | g | ⟨v, st, g⟩
  · generalize s1.buf = z at g
    cases g
  · exact .inl g
  · cases g
    exact .inr ⟨w, x, rest, rfl, g1, g2, g3⟩
  · generalize s1.buf = z at g
    cases g
  · cases g

/-- Each byte as `%XX`. -/
def percentEncode (s : Str) : Str :=
  s.flatMap fun b => [b! '%', (bytes! "0123456789ABCDEF").getD (b / 16) 0, (bytes! "0123456789ABCDEF").getD (b % 16) 0]

/-- **C27**, every character: the suffix that encodes each byte of a text is a suffix for this text. -/
theorem C27_every (verbatim : Bool) (l : List Char) : PercentDecode verbatim (percentEncode (utf8 l)) (utf8 l) := by
  have main : ∀ (u : Str), (∀ b ∈ u, b < 256) → PercentDecode verbatim (percentEncode u) u := by
    intro u
    induction u with
    | nil => intro _; exact .nil
    | cons b u ih =>
      intro h
      refine .percent ?_ (ih fun x hx => h x (by simp [hx]))
      have : ∀ n < 256, hexNumber [(bytes! "0123456789ABCDEF").getD (n / 16) 0, (bytes! "0123456789ABCDEF").getD (n % 16) 0] = some n := by
        decide +kernel
      exact this b (h b (by simp))
  refine main _ fun b hb => ?_
  obtain ⟨c, -, hb⟩ := List.mem_flatMap.1 hb
  unfold utf8Char at hb
  obtain ⟨x, -, rfl⟩ := List.mem_map.1 hb
  exact x.toNat_lt

/-- `!e!a%20b` and a blank. -/
example : TagText (bytes! "!e!a%20b ") (.Tag (bytes! "!e!") (utf8 ['a', ' ', 'b'])) (utf8 [' ']) := by
  refine .tag (h := bytes! "!e!") (w := bytes! "a%20b") (r := utf8 [' ']) (.named (name := bytes! "e") ?_) ?_ ?_ ?_
  · intro b hb; rw [← isAlnum_iff]; revert b; decide
  · rintro t h; cases h
  · refine .byte (.inl ?_) (.percent (by decide) (.byte (.inl ?_) .nil)) <;> rw [← isAlnum_iff] <;> decide
  · exact uriEnds_of (by decide) (by decide)

/-! ### C28 -/

/-- **C28**, when one more `>` follows: the suffix is that in the brackets, and what is left are the other `>`
and what follows. -/
theorem C28_partial (hx : opts.extendable = false) (hk : ¬ KeyDue s) {w : Str} {suffix rest : List Char}
    (hc : Comes s (bytes! "!<" ++ (w ++ b! '>' :: b! '>' :: utf8 rest))) (hd : PercentDecode true w (utf8 suffix)) :
    ∃ s', Scan.scanNextToken opts s = (.ok (), s') ∧ s'.buf = b! '>' :: utf8 rest ∧ Pushes s s' (.Token (.Tag [] (utf8 suffix))) := by
  have hh : HeadOk (b! '>' :: utf8 rest) := by rintro b t h; simp at h; rw [← h.1]; decide
  obtain ⟨m, h⟩ := (scanNodeTag_verbatim hx (m := {}) hh hd).1 _ rfl
  refine (step_tag hx hk hc).1 _ _ h ?_
  have hA : Around (bytes! "!<" ++ (w ++ b! '>' :: b! '>' :: utf8 rest)) (b! '>' :: utf8 rest) := by
    refine ⟨⟨bytes! "!<" ++ (w ++ [b! '>']), by simp, ?_⟩, hh⟩
    intro b hb
    simp only [List.cons_append, List.nil_append, List.mem_cons, List.mem_append, List.not_mem_nil, or_false] at hb
    rcases hb with rfl | rfl | hb | rfl
    · decide
    · decide
    · exact hd.ascii b hb
    · decide
  refine hA.boundary ?_
  simp
  omega

/-- **C28** is false: a verbatim tag with anything else after it is an error. -/
theorem C28_false (hx : opts.extendable = false) (hk : ¬ KeyDue s) {w : Str} {suffix rest : List Char}
    (hc : Comes s (bytes! "!<" ++ (w ++ b! '>' :: utf8 rest))) (hd : PercentDecode true w (utf8 suffix)) (hr : ∀ t, utf8 rest ≠ b! '>' :: t) :
    ∃ e s', Scan.scanNextToken opts s = (.err e, s') := by
  obtain ⟨e, h⟩ := (scanNodeTag_verbatim hx (m := {}) (headOk_utf8 rest) hd).2 hr
  obtain ⟨s', h'⟩ := (step_tag hx hk hc).2 e h
  exact ⟨e, s', h'⟩

/-- `!<a,b> x`. -/
example : Comes (steps {} 1 ⟨{}, bytes! "!<" ++ (bytes! "a,b" ++ b! '>' :: utf8 [' ', 'x']), []⟩) (bytes! "!<" ++ (bytes! "a,b" ++ b! '>' :: utf8 [' ', 'x'])) ∧
    PercentDecode true (bytes! "a,b") (utf8 ['a', ',', 'b']) := by
  refine ⟨(fresh_comes {} (by decide)).1, .byte (.inl ?_) (.byte (.inr (.inr ⟨rfl, by decide⟩)) (.byte (.inl ?_) .nil))⟩ <;>
    rw [← isAlnum_iff] <;> decide

/-! ### C39 -/

/-- **C39**: a quoted scalar gives the token with the value it denotes. -/
theorem C39_accepts (hx : opts.extendable = false) (hl : opts.lazy = false) (hk : ¬ KeyDue s) {single : Bool} {t v : Str}
    (hc : Comes s (quoteMark single :: t)) (hq : Quoted single t v r) (ha : AsciiTo t r) :
    ∃ s', Scan.scanNextToken opts s = (.ok (), s') ∧ s'.buf = r ∧ Pushes s s' (.Token (.Scalar v (quoteStyle single))) := by
  obtain ⟨m, h⟩ := scanFlowEager_ok hx (m := {}) hq ha.around
  have h' : scanFlow opts single ⟨quoteMark single :: t, {}⟩ = .ok (.Token (.Scalar v (quoteStyle single)), ⟨r, m⟩) := by
    unfold scanFlow
    rw [hl, h]
    rfl
  refine (step_quoted hx hk hc).1 _ _ h' ?_
  have hA : Around (quoteMark single :: t) r := by
    obtain ⟨⟨p, rfl, hp⟩, hr⟩ := ha.around
    exact ⟨⟨quoteMark single :: p, rfl, .cons (by cases single <;> decide) hp⟩, hr⟩
  refine hA.boundary ?_
  obtain ⟨⟨p, hp, -⟩, -⟩ := hA
  have := congrArg List.length hp
  simp at this ⊢
  omega

/-- **C39**, otherwise: an ASCII text that starts with a quote, and is no quoted scalar, is an error. -/
theorem C39_rejects (hx : opts.extendable = false) (hl : opts.lazy = false) (hk : ¬ KeyDue s) {single : Bool} {t : Str}
    (hc : Comes s (quoteMark single :: t)) (ha : ∀ b ∈ t, b < 128) (hu : CodesOk t) (hn : ∀ v r, ¬ Quoted single t v r) :
    ∃ e s', Scan.scanNextToken opts s = (.err e, s') := by
  have ha' : Ascii (quoteMark single :: t) := .cons (by cases single <;> decide) ha
  have hu' : CodesOk (quoteMark single :: t) := by
    intro p d u v h hv
    cases p with
    | nil =>
      have : quoteMark single ≠ 0x5C := by cases single <;> decide
      rcases h with ⟨h, -⟩ | ⟨h, -⟩ <;> exact absurd (List.cons.inj h).1 this
    | cons x p =>
      refine hu p d u v ?_ hv
      rcases h with ⟨h, hl⟩ | ⟨h, hl⟩
      · exact .inl ⟨(List.cons.inj h).2, hl⟩
      · exact .inr ⟨(List.cons.inj h).2, hl⟩
  rcases (scanFlowEager_sat (P := False) (opts := opts) (single := single) (m := {}) (.inr ha') (.inr hu') quoteMark_noBrk.isBreak).total with
    ⟨⟨tok, c⟩, h⟩ | ⟨e, h⟩
  · obtain ⟨v, -, h⟩ := scanFlowEager_par (.inr hu') _ h
    exact absurd h (hn _ _)
  · have h' : scanFlow opts single ⟨quoteMark single :: t, {}⟩ = .err e := by
      unfold scanFlow
      rw [hl, h]
      rfl
    obtain ⟨s', h''⟩ := (step_quoted hx hk hc).2 e h'
    exact ⟨e, s', h''⟩

/-- **C39**, the other way round: the quoted scalars pushed are written there. -/
theorem C39_means (h : Reach true opts (utf8 doc) s) (hs : Scan.scanNextToken opts s = (.ok (), s'))
    {e : TokenEntry} {single : Bool} {v : Str} (hu : single = true ∨ CodesOk s.buf) (he : e ∈ pushedBy s s')
    (ht : e.wrap = .Token (.Scalar v (quoteStyle single))) :
    ∃ n t, Skips true s.buf n (quoteMark single :: t) ∧ Quoted single t v s'.buf := by
  obtain ⟨n, s1, c, h1, -, h2, h3, -⟩ := step_scans (reach_before ((validUtf8_iff _).2 ⟨doc, rfl⟩) h) hs he
    (by rintro ⟨g, -⟩; rw [ht] at g; simp [isNode, MaybeToken.marker, Marker.ofToken] at g)
  rw [ht] at h2
  obtain ⟨p, hp⟩ := h1.suffix
  obtain ⟨t, h4, h5⟩ := h2.quotes (hu.imp id fun h => (hp ▸ h : CodesOk (p ++ s1.buf)).right)
  exact ⟨n, t, h4 ▸ h1, h3 ▸ h5⟩

/-- **C39**, uniqueness: a text denotes at most one value. -/
theorem C39_unique {single : Bool} {t v v' r r' : Str} (h : Quoted single t v r) (h' : Quoted single t v' r') : v = v' ∧ r = r' :=
  h.unique h'

/-- In double quotes: `a`, a blank, two line breaks and a blank, an escape, `b`. -/
example : Quoted false (bytes! "a \n\n \\tb\" x") (bytes! "a\n\tb") (bytes! " x") ∧ AsciiTo (bytes! "a \n\n \\tb\" x") (bytes! " x") := by
  have ch : ∀ {b : Byte} {t v r : Str}, NoBrk b ∧ b ≠ 0x20 ∧ b ≠ 0x09 ∧ b ≠ 0x22 ∧ b ≠ 0x5C → Quoted false t v r → Quoted false (b :: t) (b :: v) r :=
    fun h hq => .char ⟨h.2.1, h.2.2.1, not_break_of h.1⟩ h.2.2.2.1 (fun _ => h.2.2.2.2) hq
  constructor
  · refine ch (by decide) (.fold (n := 1) (t := bytes! "\\tb\" x") (v := bytes! "\tb") ?_ ?_ ?_)
    · refine .blank (.inl rfl) (.line (w := [0x0A]) ⟨by decide, fun h => absurd h.1 (by decide)⟩
        (.line (w := [0x0A]) ⟨by decide, fun h => absurd h.1 (by decide)⟩ (.blank (.inl rfl) (.done ?_ ?_ (not_break_of (by decide)) ?_))))
      · rintro t h; cases h
      · rintro t h; cases h
      · rintro h; cases h
    · rintro ⟨⟨u, h | h, -⟩, -⟩ <;> cases h
    · exact .escape (c := '\t') (v := bytes! "b") rfl (.letter (by decide)) (ch (by decide) (.close fun h => by cases h))
  · exact ⟨⟨bytes! "a \n\n \\tb\"", rfl, by decide⟩, [' ', 'x'], by decide +kernel⟩

/-! ### C17 -/

/-- **C17**, for ASCII: a text without line breaks, in single quotes and with its quotes doubled, is given back. -/
theorem C17_partial (hx : opts.extendable = false) (hl : opts.lazy = false) (hk : ¬ KeyDue s) {v : Str} {rest : List Char}
    (hv : ∀ b ∈ v, b < 128 ∧ b ≠ 0x0A ∧ b ≠ 0x0D) (hr : ∀ t, utf8 rest ≠ 0x27 :: t)
    (hc : Comes s (0x27 :: (doubled v ++ 0x27 :: utf8 rest))) :
    ∃ s', Scan.scanNextToken opts s = (.ok (), s') ∧ s'.buf = utf8 rest ∧ Pushes s s' (.Token (.Scalar v .SingleQuote)) := by
  refine C39_accepts hx hl hk (single := true) hc (quoted_doubled ?_ hr) ⟨⟨doubled v ++ [0x27], by simp, ?_⟩, rest, rfl⟩
  · intro b hb
    have := hv b hb
    unfold NoBrk
    byte_omega
  · intro b hb
    rcases List.mem_append.1 hb with hb | hb
    · exact (hv b (doubled_mem hb)).1
    · simp only [List.mem_singleton] at hb
      subst hb
      decide

/-- The text `it's`. -/
example : Comes (steps {} 1 ⟨{}, 0x27 :: (doubled (bytes! "it's") ++ 0x27 :: utf8 []), []⟩) (0x27 :: (doubled (bytes! "it's") ++ 0x27 :: utf8 [])) ∧
    doubled (bytes! "it's") = bytes! "it''s" :=
  ⟨(fresh_comes {} (by decide)).1, by decide +kernel⟩

/-- **C17** is false of other texts: with an `é` in quotes, the scanner panics. -/
theorem C17_false : ∃ v : List Char, Reach false {} (0x27 :: (doubled (utf8 v) ++ [0x27])) (steps {} 1 ⟨{}, 0x27 :: (doubled (utf8 v) ++ [0x27]), []⟩) ∧
    (Scan.scanNextToken {} (steps {} 1 ⟨{}, 0x27 :: (doubled (utf8 v) ++ [0x27]), []⟩)).1 = .panic :=
  ⟨['é'], reach_steps 1 .start (by decide +kernel), by decide +kernel⟩

/-! ### C18 -/

/-- **C18**: in double quotes, each escape stands for its character, and each other character for itself. -/
theorem C18 (hx : opts.extendable = false) (hl : opts.lazy = false) (hk : ¬ KeyDue s) {ps : List (Str × Char)} {rest : List Char}
    (hp : ∀ p ∈ ps, IsPiece p.1 p.2) (hc : Comes s (0x22 :: (piecesText ps ++ 0x22 :: utf8 rest))) :
    ∃ s', Scan.scanNextToken opts s = (.ok (), s') ∧ s'.buf = utf8 rest ∧
      Pushes s s' (.Token (.Scalar (utf8 (ps.map (·.2))) .DoubleQuote)) := by
  refine C39_accepts hx hl hk (single := false) hc (quoted_pieces hp _) ⟨⟨piecesText ps ++ [0x22], by simp, ?_⟩, rest, rfl⟩
  intro b hb
  rcases List.mem_append.1 hb with hb | hb
  · exact (pieces_bytes hp b hb).1
  · simp only [List.mem_singleton] at hb
    subst hb
    decide

/-- The digits of a number, as many as asked for. -/
def hexDigits : Nat → Nat → Str
  | 0, _ => []
  | k + 1, v => hexDigits k (v / 16) ++ [(bytes! "0123456789abcdef").getD (v % 16) 0]

theorem hexDigits_length (k v : Nat) : (hexDigits k v).length = k := by
  induction k generalizing v with
  | zero => rfl
  | succ k ih => simp [hexDigits, ih]

theorem hexDigits_number {k v : Nat} (h : v < 16 ^ k) : hexNumber (hexDigits k v) = some v := by
  have app : ∀ (a b : Str) (x : Nat), hexFrom x (a ++ b) = (hexFrom x a).bind fun y => hexFrom y b := by
    intro a
    induction a with
    | nil => intro b x; rfl
    | cons c a ih =>
      intro b x
      simp only [List.cons_append, hexFrom]
      cases hexDigit c with
      | none => rfl
      | some d => exact ih b _
  induction k generalizing v with
  | zero =>
    have : v = 0 := by simpa using h
    subst this
    rfl
  | succ k ih =>
    unfold hexNumber at ih ⊢
    rw [hexDigits, app, ih (by rw [Nat.pow_succ] at h; omega)]
    have : ∀ n < 16, hexDigit ((bytes! "0123456789abcdef").getD n 0) = some n := by decide +kernel
    simp only [Option.bind_some, hexFrom, this (v % 16) (by omega), Option.some.injEq]
    omega

/-- **C18**, every character has an escape: with eight digits, and with four or two if they suffice. -/
theorem C18_every (c : Char) : IsPiece (0x5C :: b! 'U' :: hexDigits 8 c.toNat) c ∧
    (c.toNat < 0x10000 → IsPiece (0x5C :: b! 'u' :: hexDigits 4 c.toNat) c) ∧
    (c.toNat < 0x100 → IsPiece (0x5C :: b! 'x' :: hexDigits 2 c.toNat) c) := by
  have hc := charVal_range c
  have : c.toNat = c.val.toNat := rfl
  refine ⟨.inl ⟨_, rfl, .code ?_ (hexDigits_number ?_)⟩, fun h => .inl ⟨_, rfl, .code ?_ (hexDigits_number h)⟩,
    fun h => .inl ⟨_, rfl, .code ?_ (hexDigits_number h)⟩⟩
  · rw [hexDigits_length]; decide
  · omega
  · rw [hexDigits_length]; decide
  · rw [hexDigits_length]; decide

/-- `"\U0001f600 \n"`. -/
example : IsPiece (bytes! "\\U0001f600") '😀' ∧ IsPiece (bytes! " ") ' ' ∧ IsPiece (bytes! "\\n") '\n' ∧
    piecesText [(bytes! "\\U0001f600", '😀'), (bytes! " ", ' '), (bytes! "\\n", '\n')] = bytes! "\\U0001f600 \\n" := by
  refine ⟨(C18_every '😀').1, .inr ⟨rfl, by decide⟩, .inl ⟨_, rfl, .letter (by decide)⟩, rfl⟩

/-! ### C19 -/

/-- **C19**, in ASCII, if no code stands for no character: a backslash before anything but an escape or a line break is an error. -/
theorem C19_partial (hx : opts.extendable = false) (hl : opts.lazy = false) (hk : ¬ KeyDue s) {ps : List (Str × Char)} {u : Str}
    (hp : ∀ p ∈ ps, IsPiece p.1 p.2) (hc : Comes s (0x22 :: (piecesText ps ++ 0x5C :: u)))
    (hn : ∀ e c t, Escape e c → u ≠ e ++ t) (hb : ¬ AtBreak u) (ha : ∀ b ∈ u, b < 128) (hu : CodesOk (piecesText ps ++ 0x5C :: u)) :
    ∃ e s', Scan.scanNextToken opts s = (.err e, s') := by
  refine C39_rejects hx hl hk (single := false) hc ?_ hu fun v r => pieces_bad hp hn hb
  intro b hb
  rcases List.mem_append.1 hb with hb | hb
  · exact (pieces_bytes hp b hb).1
  · rcases List.mem_cons.1 hb with rfl | hb
    · decide
    · exact ha b hb

/-- `"a\q"`. -/
example : (∀ e c t, Escape e c → (bytes! "q\"" : Str) ≠ e ++ t) ∧ CodesOk (piecesText [(bytes! "a", 'a')] ++ 0x5C :: bytes! "q\"") := by
  constructor
  · rintro e c t h hu
    cases h with
    | letter h =>
      simp only [escapeLetters, List.mem_cons, Prod.mk.injEq, List.not_mem_nil, or_false] at h
      have hu := (List.cons.inj hu).1
      rcases h with h | h | h | h | h | h | h | h | h | h | h | h | h | h | h | h | h | h <;> rw [h.1] at hu <;> exact absurd hu (by decide)
    | code h =>
      simp only [escapeCodes, List.mem_cons, Prod.mk.injEq, List.not_mem_nil, or_false] at h
      have hu := (List.cons.inj hu).1
      rcases h with h | h | h <;> rw [h.1] at hu <;> exact absurd hu (by decide)
  · exact codesOk_of_check (by decide +kernel)

/-- **C19** is false: `"\uD800"` panics, and `"\U00410000"` is taken for U+10000. -/
theorem C19_false :
    (Scan.scanNextToken {} (steps {} 1 ⟨{}, bytes! "\"\\uD800\"", []⟩)).1 = .panic ∧
    pushedBy (steps {} 1 ⟨{}, bytes! "\"\\U00410000\"", []⟩) (steps {} 2 ⟨{}, bytes! "\"\\U00410000\"", []⟩) =
      [⟨.Token (.Scalar (utf8 [Char.ofNat 0x10000]) .DoubleQuote), 12⟩] := by
  constructor <;> decide +kernel

end Yary
