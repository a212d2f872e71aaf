import Verif.Proof.Chunk.Base

/-! # White space, anchors, tags and directives at the beginning of a text -/

namespace Yary.Chunk

open Out (Sat)

variable {o o' : SFlags} {t : Str} (hx : o.extendable = true) (hx' : o'.extendable = false) (ht : HeadOk t)
include hx

theorem eatWsLoop_stuck {comments chomp : Bool} {fuel : Nat} {c : Cur} (h : c.buf = []) :
    eatWsLoop o comments fuel chomp c = .err .Extend ∨ eatWsLoop o comments fuel chomp c = .diverge := by
  cases fuel with
  | zero => exact .inr rfl
  | succ fuel => rw [eatWsLoop, h, cache_nil hx]; exact .inl rfl

include hx' ht

theorem eatWsLoop_later {comments chomp : Bool} {fuel fuel' : Nat} (hf : fuel ≤ fuel') {c : Cur}
    (hv : validUtf8 c.buf = true) :
    Later No (fun a b => Grown t a b ∧ a.buf ≠ [] ∧ isBlank a.buf = false ∧ isBreak a.buf = false ∧
      (comments && startsWith a.buf b! '#') = false)
      (eatWsLoop o comments fuel chomp c) (eatWsLoop o' comments fuel' chomp ⟨c.buf ++ t, c.stats⟩) := by
  induction fuel generalizing fuel' chomp c with
  | zero => trivial
  | succ fuel ih =>
    obtain ⟨fuel', rfl⟩ : ∃ k, fuel' = k + 1 := ⟨fuel' - 1, by omega⟩
    have hf' : fuel ≤ fuel' := by omega
    rw [eatWsLoop, eatWsLoop]
    refine cache_later hx hx' fun hh => ?_
    have hne := hh.ne
    have h1 := hh.length
    have hadv : ∀ chomp, Later No (fun a b => Grown t a b ∧ a.buf ≠ [] ∧ isBlank a.buf = false ∧ isBreak a.buf = false ∧
        (comments && startsWith a.buf b! '#') = false)
        (c.adv 1 >>= fun c => eatWsLoop o comments fuel chomp c)
        (Cur.adv ⟨c.buf ++ t, c.stats⟩ 1 >>= fun c => eatWsLoop o' comments fuel' chomp c) := fun chomp =>
      (adv_later ht hv h1).bind0 fun a b h => by
        rw [h.1.eq]; exact ih hf' h.1.valid
    refine Later.iteB (isBlank_grow hne) (fun _ => hadv _) fun hb => ?_
    refine Later.iteB (isBreak_grow hv hne) (fun _ => ?_) fun hbr => ?_
    · exact (line_later ht hv hne).bind (fun a h => eatWsLoop_stuck hx h) fun a b h => by
        rw [h.1.eq]; exact ih hf' h.1.valid
    · refine Later.iteB (by simp only [startsWith_grow hne]) (fun _ => hadv _) fun hc => ?_
      refine Later.iteB (by simp only [isEmpty_grow hne]) (fun _ => hadv _) fun _ => ?_
      exact .ok ⟨⟨rfl, hv⟩, hne, hb, hbr, hc⟩

theorem eatWs_later {comments : Bool} {c : Cur} (hv : validUtf8 c.buf = true) :
    Later No (fun a b => Grown t a b ∧ a.buf ≠ [] ∧ isBlank a.buf = false ∧ isBreak a.buf = false ∧
      (comments && startsWith a.buf b! '#') = false)
      (eatWs o comments c) (eatWs o' comments ⟨c.buf ++ t, c.stats⟩) :=
  eatWsLoop_later hx hx' ht (by simp only [List.length_append]; omega) hv

omit ht in
theorem takeWhileLen_later {f : Byte → Bool} (hf : ∀ b, f b = true → b < 128) {s : Str} (hv : validUtf8 s = true) :
    Later No (fun n m => n = m ∧ n < s.length ∧ (∀ b ∈ s.take n, f b = true)) (takeWhileLen o f s)
      (takeWhileLen o' f (s ++ t)) := by
  induction s with
  | nil => rw [takeWhileLen, if_pos hx]; exact .extend
  | cons b s ih =>
    rw [List.cons_append, takeWhileLen, takeWhileLen]
    refine cache_later hx hx' fun hh => ?_
    refine Later.iteB rfl (fun hb => ?_) fun _ => .ok ⟨rfl, by simp, by simp⟩
    refine (ih (valid_tail hv (hf b hb))).bind0 ?_
    rintro n m ⟨rfl, h, h2⟩
    refine .ok ⟨rfl, by simp; omega, ?_⟩
    intro x hx
    simp only [List.take_succ_cons, List.mem_cons] at hx
    rcases hx with rfl | hx
    · exact hb
    · exact h2 x hx

omit hx hx' ht in
theorem isDigit_ascii {b : Byte} (h : isDigit b = true) : b < 128 := by
  unfold isDigit at h
  simp at h
  byte_omega

omit hx hx' ht in
theorem isAlnum_ascii {b : Byte} (h : isAlnum b = true) : b < 128 := by
  unfold isAlnum isDigit at h
  simp at h
  byte_omega

omit hx hx' ht in
theorem take_grow {s : Str} {n : Nat} (h : n ≤ s.length) : (s ++ t).take n = s.take n :=
  List.take_append_of_le_length h

/-! ## Anchors -/

omit hx hx' ht in
theorem checkAnchorEnd_grow {s : Str} (h : s ≠ []) : checkAnchorEnd (s ++ t) = checkAnchorEnd s := by
  cases s with
  | nil => exact absurd rfl h
  | cons b s => rfl

/-- A token and the cursor behind it. -/
abbrev Read {α : Type} (t : Str) (a b : α × Cur) : Prop :=
  b = (a.1, ⟨a.2.buf ++ t, a.2.stats⟩) ∧ validUtf8 a.2.buf = true

theorem scanAnchor_later {alias : Bool} {c : Cur} (hv : validUtf8 c.buf = true) (hn : c.buf ≠ []) :
    Later No (Read t) (scanAnchor o alias c) (scanAnchor o' alias ⟨c.buf ++ t, c.stats⟩) := by
  unfold scanAnchor
  refine (adv_later ht hv (by cases h : c.buf with | nil => exact absurd h hn | cons => simp)).bind0 ?_
  rintro c1 _ ⟨⟨rfl, hv1⟩, -⟩
  refine (takeWhileLen_later hx hx' (fun _ => isAlnum_ascii) hv1).bind0 ?_
  rintro n _ ⟨rfl, h1, -⟩
  simp only
  rw [take_grow (by omega)]
  refine (adv_later ht hv1 (by omega)).bind0 ?_
  rintro c2 _ ⟨⟨rfl, hv2⟩, -⟩
  refine Later.iteB rfl (fun _ => .err) fun _ => ?_
  refine cache_later hx hx' fun hh => ?_
  rw [checkAnchorEnd_grow hh.ne]
  refine Later.same.bind0 ?_
  rintro _ _ rfl
  exact .ok ⟨rfl, hv2⟩

/-! ## Escapes -/

omit hx hx' ht in
theorem readHex_grow {n v : Nat} {s : Str} (h : n ≤ s.length) : readHex n v (s ++ t) = readHex n v s := by
  induction n generalizing v s with
  | zero => simp [readHex]
  | succ n ih =>
    cases s with
    | nil => simp at h
    | cons b s =>
      rw [List.cons_append, readHex, readHex, ih (by simpa using h)]

omit ht in
theorem flowUnescape_later {s : Str} :
    Later No (fun a b => b = a ∧ a.2 ≤ s.length) (flowUnescape o s) (flowUnescape o' (s ++ t)) := by
  unfold flowUnescape
  refine cache_later hx hx' fun hh => ?_
  refine Later.iteB (by rw [startsWith_grow hh.ne]) (fun _ => .ok ⟨rfl, by simp⟩) fun hb => ?_
  have hb : startsWith s 0x5C = true := by simpa using hb
  obtain ⟨r, rfl⟩ := startsWith_iff.1 hb
  simp only [List.cons_append, List.drop_succ_cons, List.drop_zero]
  refine cache_later hx hx' fun hh1 => ?_
  cases r with
  | nil => exact absurd rfl hh1.ne
  | cons b r =>
    have hk : escapeKind (b :: r ++ t) = escapeKind (b :: r) := rfl
    rw [hk]
    cases escapeKind (b :: r) with
    | eof => exact .err
    | unknown => exact .err
    | bytes w => exact .ok ⟨rfl, by simp⟩
    | code n =>
      simp only [List.cons_append, List.drop_succ_cons, List.drop_zero]
      refine cache_later hx hx' fun hh2 => ?_
      have := hh2.length
      rw [readHex_grow this]
      refine Later.same.bind0 ?_
      rintro v _ rfl
      exact .ok ⟨rfl, by simp; omega⟩

omit ht in
theorem percentOctet_later {s : Str} :
    Later No (fun a b => b = a ∧ 3 ≤ s.length) (percentOctet o s) (percentOctet o' (s ++ t)) := by
  unfold percentOctet
  refine cache_later hx hx' fun hh => ?_
  have := hh.length
  match s with
  | [] | [_] | [_, _] => simp at this
  | p :: a :: b :: s =>
    simp only [List.cons_append]
    exact Later.iteB rfl (fun _ => .ok ⟨rfl, this⟩) fun _ => .err

omit ht in
theorem percentTrail_later {n : Nat} {s : Str} :
    Later No (fun a b => b = a ∧ 3 * a.length ≤ s.length) (percentTrail o n s) (percentTrail o' n (s ++ t)) := by
  induction n generalizing s with
  | zero => exact .ok ⟨rfl, by simp⟩
  | succ n ih =>
    rw [percentTrail, percentTrail]
    refine (percentOctet_later hx hx').bind0 ?_
    rintro v _ ⟨rfl, h3⟩
    refine Later.iteB rfl (fun _ => ?_) fun _ => .err
    rw [drop_grow h3]
    refine ih.bind0 ?_
    rintro w _ ⟨rfl, h⟩
    exact .ok ⟨rfl, by simp at h ⊢; omega⟩

omit ht in
theorem tagUriUnescape_later {s : Str} :
    Later No (fun a b => b = a ∧ 3 * a.length ≤ s.length) (tagUriUnescape o s) (tagUriUnescape o' (s ++ t)) := by
  unfold tagUriUnescape
  refine (percentOctet_later hx hx').bind0 ?_
  rintro v _ ⟨rfl, h3⟩
  refine Later.ite Iff.rfl (fun _ => .err) fun _ => ?_
  rw [drop_grow h3]
  refine (percentTrail_later hx hx').bind0 ?_
  rintro w _ ⟨rfl, h⟩
  exact .ok ⟨rfl, by simp at h ⊢; omega⟩

/-! ## Tags -/

/-- The same progress in a URI. -/
structure UriGrown (t : Str) (a b : UriSt) : Prop where
  cur : Grown t a.cur b.cur
  scratch : b.scratch = a.scratch
  canBorrow : b.canBorrow = a.canBorrow

omit hx hx' in
theorem UriSt.push_later {st st' : UriSt} {b : Byte} (h : UriGrown t st st') (hn : st.cur.buf ≠ []) :
    Later No (UriGrown t) (st.push b) (st'.push b) := by
  unfold UriSt.push
  rw [h.cur.eq]
  refine (adv_later ht h.cur.valid (by cases h : st.cur.buf with | nil => exact absurd h hn | cons => simp)).bind0 ?_
  rintro c _ ⟨hc, -⟩
  exact .ok ⟨hc, by simp only [h.scratch, h.canBorrow], h.canBorrow⟩

theorem UriSt.percent_later {base : Str} {st st' : UriSt} (h : UriGrown t st st') :
    Later No (UriGrown t) (st.percent o base) (st'.percent o' (base ++ t)) := by
  unfold UriSt.percent
  rw [h.cur.eq]
  simp only
  refine (tagUriUnescape_later hx hx').bind0 ?_
  rintro w _ ⟨rfl, hw⟩
  refine (adv_later ht h.cur.valid hw).bind0 ?_
  rintro c _ ⟨hc, -⟩
  refine .ok ⟨hc, ?_, rfl⟩
  simp only [h.scratch, h.canBorrow, List.length_append]
  rw [Nat.add_sub_add_right, take_grow (by omega)]

theorem scanUriLoop_later {verbatim : Bool} {base : Str} {fuel fuel' : Nat} (hf : fuel ≤ fuel') {st st' : UriSt}
    (h : UriGrown t st st') :
    Later No (fun a b => UriGrown t a b ∧ a.cur.buf ≠ []) (scanUriLoop o verbatim base fuel st)
      (scanUriLoop o' verbatim (base ++ t) fuel' st') := by
  induction fuel generalizing fuel' st st' with
  | zero => trivial
  | succ fuel ih =>
    obtain ⟨fuel', rfl⟩ : ∃ k, fuel' = k + 1 := ⟨fuel' - 1, by omega⟩
    have hf' : fuel ≤ fuel' := by omega
    rw [scanUriLoop, scanUriLoop]
    refine cache_later hx hx' fun hh => ?_
    have hne := hh.ne
    cases hb : st.cur.buf with
    | nil => exact absurd hb hne
    | cons b s =>
      have hb' : st'.cur.buf = b :: (s ++ t) := by rw [h.cur.eq]; simp [hb]
      rw [hb']
      simp only
      refine Later.iteB rfl (fun _ => ?_) fun _ => ?_
      · exact (UriSt.push_later ht h hne).bind0 fun a b h => ih hf' h
      · refine Later.ite Iff.rfl (fun _ => ?_) fun _ => .ok ⟨h, hne⟩
        exact (UriSt.percent_later hx hx' ht h).bind0 fun a b h => ih hf' h

theorem scanTagUri_later {verbatim : Bool} {c : Cur} (hv : validUtf8 c.buf = true) :
    Later No (fun a b => Read t a b ∧ a.2.buf ≠ []) (scanTagUri o verbatim c)
      (scanTagUri o' verbatim ⟨c.buf ++ t, c.stats⟩) := by
  unfold scanTagUri
  simp only
  refine (scanUriLoop_later hx hx' ht (by simp only [List.length_append]; omega)
    (st := { cur := c }) (st' := { cur := ⟨c.buf ++ t, c.stats⟩ }) ⟨⟨rfl, hv⟩, rfl, rfl⟩).bind0 ?_
  rintro st st' ⟨h, hne⟩
  refine Later.iteB h.canBorrow (fun _ => ?_) fun _ => ?_
  · have hl : (c.buf ++ t).length - st'.cur.buf.length = c.buf.length - st.cur.buf.length := by
      rw [h.cur.eq]; simp only [List.length_append]; omega
    rw [hl, slice_grow ht (by omega)]
    refine Later.same.bind0 ?_
    rintro s _ rfl
    exact .ok ⟨⟨by rw [h.cur.eq], h.cur.valid⟩, hne⟩
  · rw [h.scratch]
    refine Later.same.bind0 ?_
    rintro s _ rfl
    exact .ok ⟨⟨by rw [h.cur.eq], h.cur.valid⟩, hne⟩

omit ht in
theorem scanTagHandle_later {c : Cur} (hv : validUtf8 c.buf = true) :
    Later No (fun a b => b = a ∧ ∀ h n, a.1 = some (h, n) → n ≤ c.buf.length) (scanTagHandle o c)
      (scanTagHandle o' ⟨c.buf ++ t, c.stats⟩) := by
  unfold scanTagHandle
  simp only
  refine cache_later hx hx' fun hh => ?_
  cases hb : c.buf with
  | nil => exact absurd hb hh.ne
  | cons b s =>
    simp only [List.cons_append]
    refine Later.ite Iff.rfl (fun _ => .err) fun hb1 => ?_
    have hb1 : b = b! '!' := by simpa using hb1
    rw [hb] at hv
    have hvs := valid_tail hv (by rw [hb1]; decide)
    refine (takeWhileLen_later hx hx' (fun _ => isAlnum_ascii) hvs).bind0 ?_
    rintro n _ ⟨rfl, h1, h2⟩
    simp only [Nat.add_comm 1 n, List.drop_succ_cons]
    rw [drop_grow (by omega)]
    have hvd : validUtf8 (s.drop n) = true := by
      rw [← List.take_append_drop n s] at hvs
      exact validUtf8_drop_ascii (fun x hx => isAlnum_ascii (h2 x hx)) hvs
    refine cache_later hx hx' fun hh1 => ?_
    have hnd := hh1.ne
    rw [isWhiteSpace_grow hvd hnd]
    have htk : ∀ k, k ≤ s.length + 1 → (b :: (s ++ t)).take k = (b :: s).take k := by
      intro k hk
      rw [← List.cons_append]
      exact take_grow (by simpa using hk)
    rw [htk (n + 1 + 1) (by omega), htk 1 (by omega)]
    cases hd : s.drop n with
    | nil => exact absurd hd hnd
    | cons d r =>
      simp only [List.cons_append]
      refine Later.ite Iff.rfl (fun _ => .ok ⟨rfl, ?_⟩) fun _ => ?_
      · intro h m hm
        simp only [Option.some.injEq, Prod.mk.injEq] at hm
        rw [← hm.2]
        simp; omega
      · refine Later.iteB rfl (fun _ => .ok ⟨rfl, ?_⟩) fun _ => .ok ⟨rfl, by simp⟩
        intro h m hm
        simp only [Option.some.injEq, Prod.mk.injEq] at hm
        rw [← hm.2]
        simp

omit hx hx' ht in
theorem requireBlank_grow {s : Str} (h : s ≠ []) : requireBlank (s ++ t) = requireBlank s := by
  cases s with
  | nil => exact absurd rfl h
  | cons b s => rfl

omit hx hx' ht in
theorem requireWhiteSpace_grow {s : Str} (hv : validUtf8 s = true) (h : s ≠ []) :
    requireWhiteSpace (s ++ t) = requireWhiteSpace s := by
  have := isWhiteSpace_grow (t := t) hv h
  cases s with
  | nil => exact absurd rfl h
  | cons b s =>
    simp only [List.cons_append, requireWhiteSpace] at this ⊢
    rw [this]

omit hx hx' ht in
theorem requireClose_grow {s : Str} (h : s ≠ []) : requireClose (s ++ t) = requireClose s := by
  cases s with
  | nil => exact absurd rfl h
  | cons b s => rfl

omit hx hx' ht in
theorem requireDot_grow {s : Str} (h : s ≠ []) : requireDot (s ++ t) = requireDot s := by
  cases s with
  | nil => exact absurd rfl h
  | cons b s => rfl

theorem scanTagDirective_later {c : Cur} (hv : validUtf8 c.buf = true) :
    Later No (Read t) (scanTagDirective o c) (scanTagDirective o' ⟨c.buf ++ t, c.stats⟩) := by
  unfold scanTagDirective
  refine (scanTagHandle_later hx hx' hv).bind0 ?_
  rintro ⟨r, stats⟩ _ ⟨rfl, hn⟩
  cases r with
  | none => exact .err
  | some p =>
    obtain ⟨h, amt⟩ := p
    simp only
    refine (skip_later ht (c := ⟨c.buf, stats⟩) hv (hn _ _ rfl)).bind0 ?_
    rintro c1 _ ⟨⟨rfl, hv1⟩, -⟩
    refine cache_later hx hx' fun hh => ?_
    rw [requireBlank_grow hh.ne]
    refine Later.same.bind0 ?_
    rintro _ _ rfl
    refine (eatWs_later hx hx' ht hv1).bind0 ?_
    rintro c2 _ ⟨⟨rfl, hv2⟩, -⟩
    refine (scanTagUri_later hx hx' ht hv2).bind0 ?_
    rintro ⟨pfx, c3⟩ _ ⟨⟨rfl, hv3⟩, hne⟩
    simp only at hv3 hne ⊢
    rw [requireWhiteSpace_grow hv3 hne]
    refine Later.same.bind0 ?_
    rintro _ _ rfl
    exact .ok ⟨rfl, hv3⟩

theorem scanVerbatim_later {c : Cur} (hv : validUtf8 c.buf = true) (h2 : 2 ≤ c.buf.length) :
    Later No (Read t) (scanVerbatim o c) (scanVerbatim o' ⟨c.buf ++ t, c.stats⟩) := by
  unfold scanVerbatim
  refine (skip_later ht hv h2).bind0 ?_
  rintro c1 _ ⟨⟨rfl, hv1⟩, -⟩
  refine (scanTagUri_later hx hx' ht hv1).bind0 ?_
  rintro ⟨uri, c3⟩ _ ⟨⟨rfl, hv3⟩, hne⟩
  simp only at hv3 hne ⊢
  have hl : 1 ≤ c3.buf.length := by cases h : c3.buf with | nil => exact absurd h hne | cons => simp
  rw [drop_grow hl]
  refine cache_later hx hx' fun hh => ?_
  rw [requireClose_grow hh.ne]
  refine Later.same.bind0 ?_
  rintro _ _ rfl
  refine (skip_later ht hv3 hl).bind0 ?_
  rintro c4 _ ⟨⟨rfl, hv4⟩, -⟩
  exact .ok ⟨rfl, hv4⟩

theorem scanNodeTag_later {c : Cur} (hv : validUtf8 c.buf = true) :
    Later No (Read t) (scanNodeTag o c) (scanNodeTag o' ⟨c.buf ++ t, c.stats⟩) := by
  unfold scanNodeTag
  refine cache_later hx hx' fun hh => ?_
  have h2 := hh.length
  have hp : [b! '!', b! '<'].isPrefixOf (c.buf ++ t) = [b! '!', b! '<'].isPrefixOf c.buf := by
    match hc : c.buf with
    | [] | [_] => rw [hc] at h2; simp at h2
    | a :: b :: s => simp [List.isPrefixOf]
  refine Later.iteB hp (fun _ => scanVerbatim_later hx hx' ht hv h2) fun _ => ?_
  refine (scanTagHandle_later hx hx' hv).bind0 ?_
  rintro ⟨r, stats⟩ _ ⟨rfl, hn⟩
  have huri : ∀ {c : Cur} {f : Str → Token}, validUtf8 c.buf = true →
      Later No (Read t) (scanTagUri o false c >>= fun x => .ok (f x.1, x.2))
        (scanTagUri o' false ⟨c.buf ++ t, c.stats⟩ >>= fun x => .ok (f x.1, x.2)) := by
    intro c f hv
    refine (scanTagUri_later hx hx' ht hv).bind0 ?_
    rintro ⟨pfx, c3⟩ _ ⟨⟨rfl, hg⟩, hne⟩
    exact .ok ⟨rfl, hg⟩
  cases r with
  | none =>
    simp only
    refine cache_later hx hx' fun hh => ?_
    rw [take_grow (by omega)]
    refine (adv_later ht hv (by omega)).bind0 ?_
    rintro c1 _ ⟨⟨rfl, hv1⟩, -⟩
    exact huri hv1
  | some p =>
    obtain ⟨h, amt⟩ := p
    have hs := skip_later ht (c := ⟨c.buf, stats⟩) hv (hn _ _ rfl)
    cases h with
    | Primary h =>
      simp only
      refine hs.bind0 ?_
      rintro c1 _ ⟨⟨rfl, hv1⟩, -⟩
      exact .ok ⟨rfl, hv1⟩
    | Secondary h =>
      simp only
      refine hs.bind0 ?_
      rintro c1 _ ⟨⟨rfl, hv1⟩, -⟩
      exact huri hv1
    | Named h =>
      simp only
      refine hs.bind0 ?_
      rintro c1 _ ⟨⟨rfl, hv1⟩, -⟩
      exact huri hv1

/-! ## Directives -/

theorem scanVersionNumber_later {c : Cur} (hv : validUtf8 c.buf = true) :
    Later No (Read t) (scanVersionNumber o c) (scanVersionNumber o' ⟨c.buf ++ t, c.stats⟩) := by
  unfold scanVersionNumber
  refine (takeWhileLen_later hx hx' (fun _ => isDigit_ascii) hv).bind0 ?_
  rintro n _ ⟨rfl, h1, -⟩
  rw [take_grow (by omega)]
  cases atoiU8 (c.buf.take n) with
  | none => exact .err
  | some v =>
    simp only
    refine (adv_later ht hv (by omega)).bind0 ?_
    rintro c1 _ ⟨hg, -⟩
    exact .ok ⟨by rw [hg.eq], hg.valid⟩

theorem scanDirective_later {kind : DirectiveKind} {c : Cur} (hv : validUtf8 c.buf = true) :
    Later No (Read t) (scanDirective o kind c) (scanDirective o' kind ⟨c.buf ++ t, c.stats⟩) := by
  unfold scanDirective
  cases kind with
  | Version =>
    simp only
    refine (eatWs_later hx hx' ht hv).bind0 ?_
    rintro c1 _ ⟨⟨rfl, hv1⟩, -⟩
    refine (scanVersionNumber_later hx hx' ht hv1).bind0 ?_
    rintro ⟨v, c2⟩ _ ⟨rfl, hv2⟩
    simp only at hv2 ⊢
    refine cache_later hx hx' fun hh => ?_
    rw [requireDot_grow hh.ne]
    refine Later.same.bind0 ?_
    rintro _ _ rfl
    refine (adv_later ht hv2 hh.length).bind0 ?_
    rintro c3 _ ⟨⟨rfl, hv3⟩, -⟩
    refine (scanVersionNumber_later hx hx' ht hv3).bind0 ?_
    rintro ⟨v, c2⟩ _ ⟨rfl, hg⟩
    exact .ok ⟨rfl, hg⟩
  | Tag =>
    simp only
    refine (eatWs_later hx hx' ht hv).bind0 ?_
    rintro c1 _ ⟨⟨rfl, hv1⟩, -⟩
    exact scanTagDirective_later hx hx' ht hv1

omit hx hx' ht in
theorem isPrefixOf_grow {p s : Str} (h : p.length ≤ s.length) : p.isPrefixOf (s ++ t) = p.isPrefixOf s := by
  induction p generalizing s with
  | nil => simp
  | cons a p ih =>
    cases s with
    | nil => simp at h
    | cons b s => simp only [List.cons_append, List.isPrefixOf, ih (by simpa using h)]

theorem directiveToken_later {c : Cur} (hv : validUtf8 c.buf = true) (hn : c.buf ≠ []) :
    Later No (Read t) (Scan.directiveToken o c) (Scan.directiveToken o' ⟨c.buf ++ t, c.stats⟩) := by
  unfold Scan.directiveToken
  simp only
  have hl : 1 ≤ c.buf.length := by cases h : c.buf with | nil => exact absurd h hn | cons => simp
  rw [drop_grow hl]
  refine cache_later hx hx' fun hh => ?_
  have h4 := hh.length
  simp only [List.length_drop] at h4
  have hk : DirectiveKind.new (c.buf.drop 1 ++ t) = DirectiveKind.new (c.buf.drop 1) := by
    unfold DirectiveKind.new
    have e1 : (bytes! "YAML").length = 4 := rfl
    have e2 : (bytes! "TAG").length = 3 := rfl
    rw [isPrefixOf_grow (by simp only [List.length_drop, e1]; omega),
      isPrefixOf_grow (by simp only [List.length_drop, e2]; omega)]
  rw [hk]
  refine Later.same.bind0 ?_
  rintro kind _ rfl
  refine (adv_later ht hv (by cases kind <;> simp [DirectiveKind.len] <;> omega)).bind0 ?_
  rintro c3 _ ⟨⟨rfl, hv3⟩, -⟩
  exact scanDirective_later hx hx' ht hv3

end Yary.Chunk
