import Verif.Proof.Scan.TagText

/-! # Node tags and directives: what they stand for, and which are accepted -/

namespace Yary

open Spec

variable {opts : SFlags} {verbatim : Bool}

theorem Out.Sat.par {α ε : Type} {x : Out ε α} {Q : α → Prop} (h : Out.Sat True x Q) : Out.Par x Q :=
  fun _ hx => h.of_ok hx

theorem skip_par {c : Cur} {n : Nat} : Out.Par (c.skip n) (fun c' => c' = ⟨c.buf.drop n, c.stats⟩) := by
  unfold Cur.skip; split <;> simp

theorem uriEnds_of {b : Byte} {t : Str} (h1 : uriPlain verbatim b = false) (h2 : b ≠ b! '%') : UriEnds verbatim (b :: t) :=
  ⟨b, t, rfl, by rw [← uriPlain_iff]; simp [h1], h2⟩

/-- A URI that is read is a URI text, up to where it cannot go on. -/
theorem scanTagUri_par {c : Cur} : Out.Par (scanTagUri opts verbatim c) (fun r => ∃ w, c.buf = w ++ r.2.buf ∧
    PercentDecode verbatim w r.1 ∧ UriEnds verbatim r.2.buf ∧ validUtf8 r.1 = true) := by
  intro r h
  obtain ⟨-, w, h1, h2, b, t, h3, h4, h5⟩ := (scanTagUri_sat (P := True) (.inl trivial) (.inl trivial)).of_ok h
  refine ⟨w, h1, h2.decode, h3 ▸ uriEnds_of h4 h5, ?_⟩
  unfold scanTagUri at h
  cases hl : scanUriLoop opts verbatim c.buf (c.buf.length + 1) { cur := c } with
  | ok st =>
    rw [hl] at h
    simp only [Out.ok_bind] at h
    have hi0 : UriInv verbatim c { cur := c } [] [] := ⟨rfl, .nil, .refl c, fun _ => ⟨rfl, rfl⟩, fun h => by cases h⟩
    obtain ⟨w', u', hi, -⟩ := (scanUriLoop_sat (P := True) (.inl trivial) (Nat.lt_succ_self _) hi0).of_ok hl
    split at h
    · rename_i hcb
      obtain ⟨rfl, -⟩ := hi.borrow hcb
      cases hs : slice (ε := ScanError) c.buf 0 (c.buf.length - st.cur.buf.length) with
      | ok s =>
        rw [hs] at h
        simp only [Out.ok_bind, Out.ok.injEq] at h
        have e := slice_par _ hs
        have hlen : c.buf.length - st.cur.buf.length = u'.length := by rw [hi.text]; simp
        rw [hlen, hi.text] at e
        simp at e
        subst h e
        exact validUtf8_ascii hi.uri.decode.ascii
      | err e => rw [hs] at h; simp at h
      | panic => rw [hs] at h; simp at h
      | diverge => rw [hs] at h; simp at h
    · unfold fromUtf8Unwrap at h
      split at h
      · rename_i hv
        simp only [Out.ok_bind, Out.ok.injEq] at h
        subst h
        exact hv
      · simp at h
  | err e => rw [hl] at h; simp at h
  | panic => rw [hl] at h; simp at h
  | diverge => rw [hl] at h; simp at h

theorem white_head {s : Str} (h : isWhiteSpace s = true) : ∃ b t, s = b :: t ∧ (b = 0x20 ∨ b = 0x09 ∨ b = 0x0D ∨ b = 0x0A ∨ b = 0xC2 ∨ b = 0xE2) := by
  simp only [isWhiteSpace, Bool.or_eq_true] at h
  rcases h with h | h
  · obtain ⟨b, t, hs, h⟩ := isBlank_iff.1 h
    exact ⟨b, t, hs, by rcases h with h | h <;> simp [h]⟩
  · obtain ⟨w, hw, u, rfl⟩ := atBreak_iff.2 h
    simp only [lineBreaks, List.mem_cons, List.not_mem_nil, or_false] at hw
    rcases hw with rfl | rfl | rfl | rfl | rfl | rfl <;> exact ⟨_, _, rfl, by simp⟩

theorem white_ends {s : Str} (h : isWhiteSpace s = true) : UriEnds verbatim s := by
  obtain ⟨b, t, rfl, hb⟩ := white_head h
  clear h
  refine ⟨b, t, rfl, ?_, ?_⟩
  · rw [← uriPlain_iff]
    rcases hb with rfl | rfl | rfl | rfl | rfl | rfl <;> cases verbatim <;> decide
  · rcases hb with rfl | rfl | rfl | rfl | rfl | rfl <;> decide

theorem excl_not_alnum : isAlnum (b! '!') = false := by decide

/-- A name, and what ends it, are found in one way. -/
theorem name_unique {a b s t : Str} {x y : Byte} (ha : ∀ z ∈ a, isAlnum z = true) (hb : ∀ z ∈ b, isAlnum z = true)
    (hx : isAlnum x = false) (hy : isAlnum y = false) (h : a ++ x :: s = b ++ y :: t) : a = b ∧ x = y ∧ s = t := by
  induction a generalizing b with
  | nil =>
    cases b with
    | nil => simpa using h
    | cons z b =>
      simp at h
      rw [h.1, hb z (by simp)] at hx
      cases hx
  | cons z a ih =>
    cases b with
    | nil =>
      simp at h
      rw [← h.1, ha z (by simp)] at hy
      cases hy
    | cons z' b =>
      simp at h
      obtain ⟨h1, h2, h3⟩ := ih (fun z hz => ha z (by simp [hz])) (fun z hz => hb z (by simp [hz])) h.2
      exact ⟨by rw [h.1, h1], h2, h3⟩

theorem primary_at {name r : Str} {d : Byte} (hn : ∀ z ∈ name, isAlnum z = true) (hd : isAlnum d = false) (hd' : d ≠ b! '!') :
    HandleAt [b! '!'] (name ++ d :: r) := by
  refine .primary ?_
  intro name' t hn' h
  exact hd' (name_unique hn (fun z hz => isAlnum_iff.2 (hn' z hz)) hd excl_not_alnum h).2.1

/-- A handle that is read. -/
theorem scanTagHandle_par {t : Str} {m : MStats} : Out.Par (scanTagHandle opts ⟨b! '!' :: t, m⟩) (fun r => match r.1 with
    | some (.Primary h, n) => n = 1 ∧ isWhiteSpace t = true ∧ h = [b! '!']
    | some (h, n) => ∃ name s, t = name ++ b! '!' :: s ∧ (∀ b ∈ name, IsAlnum b) ∧ n = name.length + 2 ∧ h.inner = b! '!' :: (name ++ [b! '!'])
    | none => HandleAt [b! '!'] t) := by
  unfold scanTagHandle
  refine .skip fun _ => ?_
  simp only [ne_eq, not_true_eq_false, ↓reduceIte]
  refine (takeWhileLen_sat (P := True) t).par.bind ?_
  rintro n ⟨hn, hall, hlong⟩
  refine .skip fun _ => ?_
  have hdrop : (b! '!' :: t).drop (1 + n) = t.drop n := by rw [Nat.add_comm]; rfl
  rw [hdrop]
  cases hd : t.drop n with
  | nil => simp
  | cons d r =>
    simp only
    have ht : t = t.take n ++ d :: r := by rw [← hd, List.take_append_drop]
    have hlt : n < t.length := by
      rcases Nat.lt_or_ge n t.length with h | h
      · exact h
      · rw [List.drop_of_length_le h] at hd; cases hd
    have hlen : (t.take n).length = n := by simp; omega
    have hda : isAlnum d = false := by
      refine hlong d ?_
      have : (t.drop n)[0]? = some d := by rw [hd]; rfl
      simpa using this
    split
    · rename_i hd'
      subst hd'
      have htake : (b! '!' :: t).take (1 + n + 1) = b! '!' :: (t.take n ++ [b! '!']) := by
        rw [Nat.add_assoc, Nat.add_comm]
        simp only [List.take_succ_cons]
        rw [List.take_succ]
        have : t[n]? = some (b! '!') := by
          have : (t.drop n)[0]? = some (b! '!') := by rw [hd]; rfl
          simpa using this
        rw [this]
        rfl
      rw [htake]
      have res : ∃ name s, t = name ++ b! '!' :: s ∧ (∀ b ∈ name, IsAlnum b) ∧ 1 + n + 1 = name.length + 2 ∧ b! '!' :: (t.take n ++ [b! '!']) = b! '!' :: (name ++ [b! '!']) :=
        ⟨t.take n, r, ht, fun b hb => isAlnum_iff.1 (hall b hb), by omega, rfl⟩
      by_cases h0 : n = 0
      · simp only [if_pos h0, Out.Par.ok]
        exact res
      · simp only [if_neg h0, Out.Par.ok]
        exact res
    · rename_i hd'
      split
      · rename_i h
        simp only [Bool.and_eq_true, decide_eq_true_eq] at h
        obtain ⟨rfl, hw⟩ := h
        simp only [Out.Par.ok]
        simp only [List.drop_zero] at hd
        simpa [hd] using hw
      · simp only [Out.Par.ok]
        rw [ht]
        exact primary_at hall hda hd'

/-- A tag that is read: its handle, its suffix, and where it ends; verbatim tags are another matter. -/
theorem scanNodeTag_par {t : Str} {m : MStats} : Out.Par (scanNodeTag opts ⟨b! '!' :: t, m⟩) (fun r =>
    (∃ w x s u, t = b! '<' :: (w ++ x :: r.2.buf) ∧ r.2.buf = b! '>' :: s ∧ PercentDecode true w u ∧ UriEnds true (x :: r.2.buf) ∧ validUtf8 u = true ∧ r.1 = .Tag [] u) ∨
    ((∀ s, t ≠ b! '<' :: s) ∧ ∃ h w u, b! '!' :: t = h ++ (w ++ r.2.buf) ∧ HandleAt h (w ++ r.2.buf) ∧ PercentDecode false w u ∧
      UriEnds false r.2.buf ∧ validUtf8 u = true ∧ r.1 = .Tag h u)) := by
  unfold scanNodeTag
  refine .skip fun _ => ?_
  split
  · rename_i h
    obtain ⟨u, hu⟩ := List.isPrefixOf_iff_prefix.1 h
    simp only [List.cons_append, List.nil_append, List.cons.injEq, true_and] at hu
    subst hu
    clear h
    unfold scanVerbatim
    refine skip_par.bind ?_
    rintro _ rfl
    refine scanTagUri_par.bind ?_
    rintro ⟨uri, c⟩ ⟨w, h1, h2, h3, h4⟩
    simp only [List.drop_succ_cons, List.drop_zero] at h1 h2 h3 h4 ⊢
    refine .skip fun _ => ?_
    refine (requireClose_sat (P := True) _).par.bind ?_
    rintro _ hcl
    refine skip_par.bind ?_
    rintro _ rfl
    simp only [Out.Par.ok]
    obtain ⟨x, s, hs, -⟩ := id h3
    rw [hs] at hcl h1 h3
    simp only [hs, List.drop_succ_cons, List.drop_zero] at hcl ⊢
    obtain ⟨s', hs'⟩ := startsWith_iff.1 hcl
    exact .inl ⟨w, x, s', uri, by rw [h1], hs', h2, h3, h4, rfl⟩
  · rename_i hnv
    have hnv : ∀ s, t ≠ b! '<' :: s := by rintro s rfl; simp at hnv
    refine scanTagHandle_par.bind ?_
    rintro ⟨r, m'⟩ h
    have key : ∀ (h : Str) (n : Nat), (b! '!' :: t).take n = h → HandleAt h ((b! '!' :: t).drop n) → Out.Par (do
          let c ← Cur.skip ⟨b! '!' :: t, m'⟩ n
          let (suffix, c) ← scanTagUri opts false c
          Out.ok (Token.Tag h suffix, c)) (fun r =>
    (∃ w x s u, t = b! '<' :: (w ++ x :: r.2.buf) ∧ r.2.buf = b! '>' :: s ∧ PercentDecode true w u ∧ UriEnds true (x :: r.2.buf) ∧ validUtf8 u = true ∧ r.1 = .Tag [] u) ∨
    ((∀ s, t ≠ b! '<' :: s) ∧ ∃ h w u, b! '!' :: t = h ++ (w ++ r.2.buf) ∧ HandleAt h (w ++ r.2.buf) ∧ PercentDecode false w u ∧
      UriEnds false r.2.buf ∧ validUtf8 u = true ∧ r.1 = .Tag h u)) := by
      intro h n ht hh
      refine skip_par.bind ?_
      rintro _ rfl
      refine scanTagUri_par.bind ?_
      rintro ⟨u, c⟩ ⟨w, h1, h2, h3, h4⟩
      simp only [Out.Par.ok]
      simp only at h1 h2 h3 h4
      refine .inr ⟨hnv, h, w, u, ?_, ?_, h2, h3, h4, rfl⟩
      · rw [← h1, ← ht, List.take_append_drop]
      · rw [← h1]; exact hh
    cases r with
    | none =>
      simp only at h ⊢
      refine .skip fun _ => ?_
      refine adv_par.bind ?_
      rintro _ rfl
      refine scanTagUri_par.bind ?_
      rintro ⟨u, c⟩ ⟨w, h1, h2, h3, h4⟩
      simp only [Out.Par.ok]
      simp only [List.drop_succ_cons, List.drop_zero] at h1 h2 h3 h4
      refine .inr ⟨hnv, _, w, u, ?_, ?_, h2, h3, h4, rfl⟩
      · simp only [← h1, List.take_succ_cons, List.take_zero, List.cons_append, List.nil_append]
      · rw [← h1]; exact h
    | some hn =>
      obtain ⟨h', n⟩ := hn
      have nm : (∃ name s, t = name ++ b! '!' :: s ∧ (∀ b ∈ name, IsAlnum b) ∧ n = name.length + 2 ∧ h'.inner = b! '!' :: (name ++ [b! '!'])) →
          (b! '!' :: t).take n = h'.inner ∧ HandleAt h'.inner ((b! '!' :: t).drop n) := by
        rintro ⟨name, s, rfl, h1, rfl, h2⟩
        rw [h2]
        refine ⟨?_, .named h1⟩
        have : (b! '!' :: (name ++ b! '!' :: s)) = b! '!' :: (name ++ [b! '!']) ++ s := by simp
        rw [this, List.take_left']
        simp
      cases h' with
      | Primary p =>
        simp only at h ⊢
        obtain ⟨rfl, h1, rfl⟩ := h
        refine skip_par.bind ?_
        rintro _ rfl
        simp only [Out.Par.ok, List.drop_succ_cons, List.drop_zero]
        refine .inr ⟨hnv, [b! '!'], [], [], rfl, ?_, .nil, white_ends h1, rfl, rfl⟩
        obtain ⟨b, r, rfl, hb⟩ := white_head h1
        refine primary_at (name := []) (by simp) ?_ ?_
        · rcases hb with rfl | rfl | rfl | rfl | rfl | rfl <;> decide
        · rcases hb with rfl | rfl | rfl | rfl | rfl | rfl <;> decide
      | Secondary p => exact key _ n (nm h).1 (nm h).2
      | Named p => exact key _ n (nm h).1 (nm h).2

/-! ### Accepting -/

theorem scanTagHandle_named (hx : opts.extendable = false) {name s : Str} {m : MStats} (hn : ∀ b ∈ name, isAlnum b = true) :
    ∃ h m', scanTagHandle opts ⟨b! '!' :: (name ++ b! '!' :: s), m⟩ = .ok (some (h, name.length + 2), m') ∧
      h.inner = b! '!' :: (name ++ [b! '!']) ∧ ∀ p, h ≠ .Primary p := by
  unfold scanTagHandle
  simp only [cache_whole opts hx, Out.ok_bind, ne_eq, not_true_eq_false, ↓reduceIte]
  rw [takeWhileLen_eq hx hn (by intro b t h; simp at h; rw [← h.1]; decide)]
  simp only [Out.ok_bind]
  have h1 : (b! '!' :: (name ++ b! '!' :: s)).drop (1 + name.length) = b! '!' :: s := by
    rw [Nat.add_comm]; simp
  have h2 : (b! '!' :: (name ++ b! '!' :: s)).take (1 + name.length + 1) = b! '!' :: (name ++ [b! '!']) := by
    have : (b! '!' :: (name ++ b! '!' :: s)) = b! '!' :: (name ++ [b! '!']) ++ s := by simp
    rw [this, List.take_left']
    simp; omega
  rw [h1, h2]
  simp only [↓reduceIte]
  rw [show 1 + name.length + 1 = name.length + 2 by omega]
  split
  · exact ⟨_, _, rfl, rfl, by simp⟩
  · exact ⟨_, _, rfl, rfl, by simp⟩

theorem takeWhile_split (s : Str) : ∃ name r, s = name ++ r ∧ (∀ b ∈ name, isAlnum b = true) ∧ ∀ b t, r = b :: t → isAlnum b = false := by
  induction s with
  | nil => exact ⟨[], [], rfl, by simp, by simp⟩
  | cons b s ih =>
    cases hb : isAlnum b with
    | true =>
      obtain ⟨name, r, rfl, h1, h2⟩ := ih
      refine ⟨b :: name, r, rfl, ?_, h2⟩
      intro x hx
      rcases List.mem_cons.1 hx with rfl | hx
      · exact hb
      · exact h1 x hx
    | false =>
      refine ⟨[], b :: s, rfl, by simp, ?_⟩
      intro b' t' h
      simp at h
      rw [← h.1]; exact hb

theorem scanTagHandle_primary (hx : opts.extendable = false) {t : Str} {m : MStats} (hh : HandleAt [b! '!'] t)
    (hne : ∀ name, (∀ b ∈ name, isAlnum b = true) → t ≠ name) :
    scanTagHandle opts ⟨b! '!' :: t, m⟩ =
      if isWhiteSpace t then .ok (some (.Primary [b! '!'], 1), m.update 1 0 1) else .ok (none, m) := by
  obtain ⟨name, r, rfl, h1, h2⟩ := takeWhile_split t
  unfold scanTagHandle
  simp only [cache_whole opts hx, Out.ok_bind, ne_eq, not_true_eq_false, ↓reduceIte]
  rw [takeWhileLen_eq hx h1 h2]
  simp only [Out.ok_bind]
  have e1 : (b! '!' :: (name ++ r)).drop (1 + name.length) = r := by
    rw [Nat.add_comm]; simp
  rw [e1]
  cases r with
  | nil => exact absurd (List.append_nil _) (hne name h1)
  | cons d r =>
    simp only
    have hd : d ≠ b! '!' := by
      rintro rfl
      generalize hg : ([b! '!'] : Str) = g at hh
      cases hh with
      | named => simp at hg
      | primary h => exact h name r (fun b hb => isAlnum_iff.1 (h1 b hb)) rfl
    rw [if_neg hd]
    cases name with
    | nil => simp
    | cons x name =>
      have : isWhiteSpace (x :: (name ++ d :: r)) = false := by
        have := h1 x (by simp)
        have hb := (isAlnum_noBrk this).isBreak (t := name ++ d :: r)
        simp only [isWhiteSpace, hb, Bool.or_false]
        rw [not_blank]
        constructor <;> (rintro t h; simp at h; rw [h.1] at this; revert this; decide)
      simp [this]

/-- Every tag is accepted. -/
theorem scanNodeTag_eq (hx : opts.extendable = false) {h w r : Str} {l : List Char} {m : MStats} (hr : HeadOk r)
    (hend : UriEnds false r) (hh : HandleAt h (w ++ r)) (hd : PercentDecode false w (utf8 l)) (hv : ∀ s, h ++ (w ++ r) ≠ b! '!' :: b! '<' :: s) :
    ∃ m', scanNodeTag opts ⟨h ++ (w ++ r), m⟩ = .ok (.Tag h (utf8 l), ⟨r, m'⟩) := by
  have hw := hd.ascii
  have hwr : HeadOk (w ++ r) := by
    cases w with
    | nil => exact hr
    | cons x w =>
      rintro b t hs
      simp at hs
      exact .inl (hs.1 ▸ hw x (by simp))
  unfold scanNodeTag
  simp only [cache_whole opts hx, Out.ok_bind]
  have skip : ∀ (p : Str) (m : MStats), Ascii p → Cur.skip ⟨p ++ (w ++ r), m⟩ p.length = .ok ⟨w ++ r, m⟩ := by
    intro p m hp
    unfold Cur.skip
    rw [if_pos ((Around.mk ⟨p, rfl, hp⟩ hwr).boundary (by simp))]
    simp
  generalize hwr' : w ++ r = z at hh
  cases hh with
  | @named name _ hn =>
    have hn := fun b hb => isAlnum_iff.2 (hn b hb)
    subst hwr'
    rw [if_neg]
    · obtain ⟨h', m', g1, g2, g3⟩ := scanTagHandle_named hx (s := w ++ r) (m := m) hn
      have e : (b! '!' :: (name ++ [b! '!']) ++ (w ++ r)) = b! '!' :: (name ++ b! '!' :: (w ++ r)) := by simp
      rw [e, g1]
      simp only [Out.ok_bind]
      have hs := skip (b! '!' :: (name ++ [b! '!'])) m' (.cons (by decide) (Ascii.append (fun b hb => isAlnum_ascii (hn b hb)) (.cons (by decide) .nil)))
      rw [e] at hs
      simp only [List.length_cons, List.length_append, List.length_nil] at hs
      obtain ⟨m'', hu⟩ := scanTagUri_eq hx (m := m') hr hend hd
      cases h' with
      | Primary p => exact absurd rfl (g3 p)
      | Secondary p =>
        simp only [hs, Out.ok_bind, hu]
        exact ⟨m'', by rw [← g2]⟩
      | Named p =>
        simp only [hs, Out.ok_bind, hu]
        exact ⟨m'', by rw [← g2]⟩
    · intro h
      obtain ⟨u, hu⟩ := List.isPrefixOf_iff_prefix.1 h
      exact hv u hu.symm
  | primary hh' =>
    subst hwr'
    have hne : ∀ name, (∀ b ∈ name, isAlnum b = true) → w ++ r ≠ name := by
      rintro name hn rfl
      obtain ⟨b, t, rfl, h1, -⟩ := hend
      have := hn b (by simp)
      exact h1 (.inl (isAlnum_iff.1 this))
    rw [if_neg]
    · have hp := scanTagHandle_primary hx (m := m) (.primary hh') hne
      simp only [List.cons_append, List.nil_append]
      rw [hp]
      by_cases hws : isWhiteSpace (w ++ r) = true
      · rw [if_pos hws]
        simp only [Out.ok_bind]
        have hs := skip [b! '!'] (m.update 1 0 1) (.cons (by decide) .nil)
        simp only [List.length_cons, List.length_nil, List.cons_append, List.nil_append] at hs
        rw [hs]
        simp only [Out.ok_bind]
        -- nothing is left of the tag
        have hw0 : w = [] ∧ utf8 l = [] := by
          generalize hul : utf8 l = u at hd
          cases hd with
          | nil => exact ⟨rfl, rfl⟩
          | @byte b s _ hb _ =>
            obtain ⟨x, y, hxy, hx2, -⟩ := white_ends (verbatim := false) hws
            simp at hxy
            rw [hxy.1] at hb
            exact absurd hb hx2
          | percent =>
            obtain ⟨x, y, hxy, -, hx2⟩ := white_ends (verbatim := false) hws
            simp at hxy
            exact absurd hxy.1.symm hx2
        rw [hw0.1, hw0.2]
        exact ⟨_, rfl⟩
      · rw [if_neg hws]
        simp only [Out.ok_bind]
        have := adv_prefix (m := m) (p := [b! '!']) (r := w ++ r) (.cons (by decide) .nil) hwr
        rw [show (⟨b! '!' :: (w ++ r), m⟩ : Cur).adv 1 = _ from this]
        simp only [Out.ok_bind]
        obtain ⟨m'', hu⟩ := scanTagUri_eq hx (m := m.update 1 0 1) hr hend hd
        simp only [List.length_cons, List.length_nil, Nat.zero_add]
        rw [hu]
        exact ⟨m'', rfl⟩
    · intro h
      obtain ⟨u, hu⟩ := List.isPrefixOf_iff_prefix.1 h
      exact hv u hu.symm

/-- What happens to a verbatim tag. -/
theorem scanNodeTag_verbatim (hx : opts.extendable = false) {w r : Str} {l : List Char} {m : MStats} (hr : HeadOk r)
    (hd : PercentDecode true w (utf8 l)) :
    (∀ s, r = b! '>' :: s → ∃ m', scanNodeTag opts ⟨b! '!' :: b! '<' :: (w ++ b! '>' :: r), m⟩ = .ok (.Tag [] (utf8 l), ⟨r, m'⟩)) ∧
    ((∀ s, r ≠ b! '>' :: s) → ∃ e, scanNodeTag opts ⟨b! '!' :: b! '<' :: (w ++ b! '>' :: r), m⟩ = .err e) := by
  have hw := hd.ascii
  have hcl : HeadOk (b! '>' :: r) := by rintro b t h; simp at h; rw [← h.1]; decide
  have hwr : HeadOk (w ++ b! '>' :: r) := by
    cases w with
    | nil => exact hcl
    | cons x w =>
      rintro b t hs
      simp at hs
      exact .inl (hs.1 ▸ hw x (by simp))
  have hend : UriEnds true (b! '>' :: r) := ⟨_, _, rfl, by rw [← uriPlain_iff]; decide, by decide⟩
  obtain ⟨m', hu⟩ := scanTagUri_eq hx (m := m) hcl hend hd
  have start : scanNodeTag opts ⟨b! '!' :: b! '<' :: (w ++ b! '>' :: r), m⟩ = (do
      requireClose r
      let c ← Cur.skip ⟨b! '>' :: r, m'⟩ 1
      Out.ok (.Tag [] (utf8 l), c)) := by
    unfold scanNodeTag
    simp only [cache_whole opts hx, Out.ok_bind]
    rw [if_pos (by simp)]
    unfold scanVerbatim
    have hs : Cur.skip ⟨b! '!' :: b! '<' :: (w ++ b! '>' :: r), m⟩ 2 = .ok ⟨w ++ b! '>' :: r, m⟩ := by
      unfold Cur.skip
      have hA : Around (b! '!' :: b! '<' :: (w ++ b! '>' :: r)) (w ++ b! '>' :: r) := ⟨⟨[b! '!', b! '<'], rfl, .cons (by decide) (.cons (by decide) .nil)⟩, hwr⟩
      rw [if_pos (hA.boundary (by simp; omega))]
      rfl
    rw [hs]
    simp only [Out.ok_bind, hu, cache_whole opts hx, List.drop_succ_cons, List.drop_zero]
  have hs : Cur.skip ⟨b! '>' :: r, m'⟩ 1 = .ok ⟨r, m'⟩ := by
    unfold Cur.skip
    have hA : Around (b! '>' :: r) r := ⟨⟨[b! '>'], rfl, .cons (by decide) .nil⟩, hr⟩
    rw [if_pos (hA.boundary (by simp; omega))]
    rfl
  rw [start]
  constructor
  · rintro s rfl
    rw [hs]
    simp only [requireClose, ↓reduceIte, Out.ok_bind]
    exact ⟨m', rfl⟩
  · intro hn
    cases r with
    | nil => exact ⟨_, rfl⟩
    | cons b t =>
      have : b ≠ b! '>' := by rintro rfl; exact hn t rfl
      simp only [requireClose, this, ↓reduceIte]
      exact ⟨_, rfl⟩

end Yary
