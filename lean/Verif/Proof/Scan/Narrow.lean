import Verif.Proof.Scan.JamStep
import Verif.Proof.Scan.Cow

/-! # Only characters of one byte and line breaks are read -/

namespace Yary

open Spec

variable {opts : SFlags} {α β : Type}

/-- From `s` to `r`, over characters of one byte and line breaks. -/
inductive Thin : Str → Str → Prop where
  | refl (s : Str) : Thin s s
  | byte {b : Byte} {t r : Str} : b < 128 → Thin t r → Thin (b :: t) r
  | nel {t r : Str} : Thin t r → Thin (0xC2 :: 0x85 :: t) r
  | sep {b : Byte} {t r : Str} : b = 0xA8 ∨ b = 0xA9 → Thin t r → Thin (0xE2 :: 0x80 :: b :: t) r

namespace Thin

theorem trans {a b c : Str} (h : Thin a b) (h' : Thin b c) : Thin a c := by
  induction h with
  | refl => exact h'
  | byte hb _ ih => exact .byte hb (ih h')
  | nel _ ih => exact .nel (ih h')
  | sep hb _ ih => exact .sep hb (ih h')

theorem suffix {a b : Str} (h : Thin a b) : ∃ p, a = p ++ b := by
  induction h with
  | refl => exact ⟨[], rfl⟩
  | @byte b _ _ _ _ ih => obtain ⟨p, hp⟩ := ih; exact ⟨b :: p, by rw [hp]; rfl⟩
  | nel _ ih => obtain ⟨p, hp⟩ := ih; exact ⟨0xC2 :: 0x85 :: p, by rw [hp]; rfl⟩
  | @sep b _ _ _ _ ih => obtain ⟨p, hp⟩ := ih; exact ⟨0xE2 :: 0x80 :: b :: p, by rw [hp]; rfl⟩

theorem valid {a b : Str} (h : Thin a b) (hv : validUtf8 a = true) : validUtf8 b = true := by
  induction h with
  | refl => exact hv
  | byte hb _ ih => exact ih (by rwa [validUtf8_cons hb] at hv)
  | nel _ ih => exact ih (by rw [validUtf8_two (by decide)] at hv; simpa using hv)
  | sep hb _ ih => exact ih ((validUtf8_three (by decide)).1 hv).2.2

theorem ascii {p t : Str} (h : Ascii p) : Thin (p ++ t) t := by
  induction p with
  | nil => exact .refl _
  | cons b p ih => exact .byte (h b (by simp)) (ih fun x hx => h x (by simp [hx]))

theorem drop {s : Str} {n : Nat} (h : Ascii (s.take n)) : Thin s (s.drop n) := by
  have := ascii (t := s.drop n) h
  rwa [List.take_append_drop] at this

theorem brk (s : Str) : Thin s (s.drop (breakLen s)) := by
  unfold breakLen
  split
  · exact .byte (by decide) (.byte (by decide) (.refl _))
  · exact .nel (.refl _)
  · exact .sep (.inl rfl) (.refl _)
  · exact .sep (.inr rfl) (.refl _)
  · exact .byte (by decide) (.refl _)
  · exact .byte (by decide) (.refl _)
  · exact .refl _

end Thin

theorem adv1_thin {c : Cur} (hv : validUtf8 c.buf = true) : Out.Par (c.adv 1) (fun c' => Thin c.buf c'.buf) := by
  unfold Cur.adv
  split
  · rename_i h
    simp only [Out.Par.ok]
    obtain ⟨buf, m⟩ := c
    cases buf with
    | nil => simp [isBoundary] at h
    | cons b t =>
      by_cases hb : b < 128
      · exact .byte hb (.refl _)
      · rw [wide_boundary hv (by byte_omega)] at h
        cases h
  · simp

theorem adv_thin {c : Cur} {n : Nat} (h : Ascii (c.buf.take n)) : Out.Par (c.adv n) (fun c' => Thin c.buf c'.buf) :=
  adv_par.mono fun c' h' => by rw [h']; exact .drop h

theorem skip_thin {c : Cur} {n : Nat} (h : Ascii (c.buf.take n)) : Out.Par (c.skip n) (fun c' => Thin c.buf c'.buf) :=
  skip_par.mono fun c' h' => by rw [h']; exact .drop h

theorem line_thin {c : Cur} : Out.Par c.line (fun c' => Thin c.buf c'.buf) :=
  line_par.mono fun c' h' => by rw [h']; exact .brk _

/-! ### White space -/

theorem eatWsLoop_thin {comments : Bool} {fuel : Nat} {chomp : Bool} {c : Cur} (hv : validUtf8 c.buf = true) :
    Out.Par (eatWsLoop opts comments fuel chomp c) (fun c' => Thin c.buf c'.buf) := by
  induction fuel generalizing chomp c with
  | zero => simp [eatWsLoop]
  | succ fuel ih =>
    rw [eatWsLoop]
    refine .skip fun _ => ?_
    repeat' split
    · exact (adv1_thin hv).bind fun c1 h1 => (ih (h1.valid hv)).mono fun _ h => h1.trans h
    · exact line_thin.bind fun c1 h1 => (ih (h1.valid hv)).mono fun _ h => h1.trans h
    · exact (adv1_thin hv).bind fun c1 h1 => (ih (h1.valid hv)).mono fun _ h => h1.trans h
    · exact (adv1_thin hv).bind fun c1 h1 => (ih (h1.valid hv)).mono fun _ h => h1.trans h
    · simp [Thin.refl]

theorem eatWs_thin {comments : Bool} {c : Cur} (hv : validUtf8 c.buf = true) :
    Out.Par (eatWs opts comments c) (fun c' => Thin c.buf c'.buf) := eatWsLoop_thin hv

/-! ### Anchors, tags, directives -/

theorem alnum_lt {b : Byte} (h : isAlnum b = true) : b < 128 := by
  unfold isAlnum isDigit at h
  simp only [Bool.or_eq_true, Bool.and_eq_true, decide_eq_true_eq] at h
  byte_omega

theorem take_ascii {f : Byte → Bool} (hf : ∀ b, f b = true → b < 128) (s : Str) :
    Out.Par (takeWhileLen opts f s) (fun n => Ascii (s.take n)) :=
  (takeWhileLen_sat (P := True) s).par.mono fun _ h b hb => hf b (h.2.1 b hb)

theorem scanAnchor_thin {isAlias : Bool} {c : Cur} (hv : validUtf8 c.buf = true) :
    Out.Par (scanAnchor opts isAlias c) (fun r => Thin c.buf r.2.buf) := by
  unfold scanAnchor
  refine (adv1_thin hv).bind fun c1 h1 => (take_ascii (fun b h => alnum_lt h) _).bind fun n hn => (adv_thin hn).bind fun c2 h2 => ?_
  split
  · simp
  · refine .skip fun _ => .skip fun _ => ?_
    simpa using h1.trans h2

theorem scanTagUri_thin {verbatim : Bool} {c : Cur} : Out.Par (scanTagUri opts verbatim c) (fun r => Thin c.buf r.2.buf) := by
  intro r h
  obtain ⟨w, h1, h2, -⟩ := scanTagUri_par _ h
  rw [h1]
  exact .ascii h2.ascii

theorem scanTagHandle_thin {c : Cur} : Out.Par (scanTagHandle opts c) (fun r => ∀ h n, r.1 = some (h, n) → Ascii (c.buf.take n)) := by
  refine (scanTagHandle_sat (P := True)).par.mono ?_
  rintro ⟨r, m⟩ h hd n hr
  simp only at hr
  subst hr
  simp only at h
  obtain ⟨-, -, -, -, h⟩ := h
  cases hd with
  | Primary _ => simp only at h; rw [h.1]; unfold Ascii; decide
  | Secondary _ => simp only at h; rw [h]; unfold Ascii; decide
  | Named _ =>
    simp only at h
    obtain ⟨name, -, h1, h2⟩ := h
    rw [h2]
    exact Ascii.append (.cons (by decide) fun b hb => alnum_lt (h1 b hb)) (by unfold Ascii; decide)

theorem scanTagDirective_thin {c : Cur} (hv : validUtf8 c.buf = true) : Out.Par (scanTagDirective opts c) (fun r => Thin c.buf r.2.buf) := by
  unfold scanTagDirective
  refine scanTagHandle_thin.bind ?_
  rintro ⟨r, m⟩ h
  cases r with
  | none => simp
  | some x =>
    obtain ⟨hd, n⟩ := x
    refine (skip_thin (c := ⟨c.buf, m⟩) (h hd n rfl)).bind fun c1 h1 => .skip fun _ => .skip fun _ =>
      (eatWs_thin (h1.valid hv)).bind fun c2 h2 => scanTagUri_thin.bind fun c3 h3 => .skip fun _ => ?_
    simpa using (h1.trans h2).trans h3

theorem scanVerbatim_thin {c : Cur} (hv : validUtf8 c.buf = true) (h2 : [b! '!', b! '<'].isPrefixOf c.buf = true) :
    Out.Par (scanVerbatim opts c) (fun r => Thin c.buf r.2.buf) := by
  obtain ⟨u, hu⟩ := List.isPrefixOf_iff_prefix.1 h2
  unfold scanVerbatim
  refine (skip_thin (by rw [← hu]; simp only [List.take_append_of_le_length, List.length_cons, List.length_nil, Nat.le_refl]; unfold Ascii; decide)).bind
    fun c1 h1 => ?_
  intro r h
  obtain ⟨⟨uri, c2⟩, g1, h⟩ := Out.bind_eq_ok.1 h
  obtain ⟨_, -, h⟩ := Out.bind_eq_ok.1 h
  obtain ⟨_, g2, h⟩ := Out.bind_eq_ok.1 h
  obtain ⟨c3, g3, h⟩ := Out.bind_eq_ok.1 h
  cases h
  have t2 := scanTagUri_thin _ g1
  have hv2 := t2.valid (h1.valid hv)
  simp only at hv2 t2 g2
  refine h1.trans (t2.trans ?_)
  have e3 := skip_par _ g3
  have hb : isBoundary c2.buf 1 = true := by
    unfold Cur.skip at g3
    split at g3
    · assumption
    · cases g3
  have := adv1_thin (c := c2) hv2
  unfold Cur.adv at this
  rw [if_pos hb] at this
  rw [e3]
  simpa using this

theorem scanNodeTag_thin {c : Cur} (hv : validUtf8 c.buf = true) : Out.Par (scanNodeTag opts c) (fun r => Thin c.buf r.2.buf) := by
  unfold scanNodeTag
  refine .skip fun _ => ?_
  split
  · exact scanVerbatim_thin hv ‹_›
  · refine scanTagHandle_thin.bind ?_
    rintro ⟨r, m⟩ h
    rcases r with _ | ⟨hd, n⟩
    rotate_left
    · have hn := h hd n rfl
      cases hd with
      | Primary _ =>
        refine (skip_thin (c := ⟨c.buf, m⟩) hn).bind fun c1 h1 => ?_
        simpa using h1
      | Secondary _ =>
        refine (skip_thin (c := ⟨c.buf, m⟩) hn).bind fun c1 h1 => scanTagUri_thin.bind fun c3 h3 => ?_
        simpa using h1.trans h3
      | Named _ =>
        refine (skip_thin (c := ⟨c.buf, m⟩) hn).bind fun c1 h1 => scanTagUri_thin.bind fun c3 h3 => ?_
        simpa using h1.trans h3
    · refine .skip fun _ => (adv1_thin hv).bind fun c1 h1 => scanTagUri_thin.bind fun c3 h3 => ?_
      simpa using h1.trans h3

theorem scanVersionNumber_thin {c : Cur} : Out.Par (scanVersionNumber opts c) (fun r => Thin c.buf r.2.buf) := by
  unfold scanVersionNumber
  refine (take_ascii (fun b h => digit_lt h) _).bind fun n hn => ?_
  split
  · simp
  · exact (adv_thin hn).bind fun c1 h1 => by simpa using h1

theorem directiveToken_thin {c : Cur} (hv : validUtf8 c.buf = true) (h8 : ∃ t, c.buf = b! '%' :: t) :
    Out.Par (Scan.directiveToken opts c) (fun r => Thin c.buf r.2.buf) := by
  obtain ⟨t, ht⟩ := h8
  unfold Scan.directiveToken
  refine .skip fun _ => ?_
  rw [ht]
  simp only [List.drop_succ_cons, List.drop_zero]
  refine Out.Par.bind (Q := fun k => Ascii (c.buf.take (1 + k.len))) ?_ fun k hk => (adv_thin hk).bind fun c1 h1 => ?_
  · unfold DirectiveKind.new
    rw [ht]
    split
    · rename_i h
      obtain ⟨u, rfl⟩ := List.isPrefixOf_iff_prefix.1 h
      simp only [Out.Par.ok]
      exact fun b hb => by simp [DirectiveKind.len] at hb; byte_omega
    · split
      · rename_i h
        obtain ⟨u, rfl⟩ := List.isPrefixOf_iff_prefix.1 h
        simp only [Out.Par.ok]
        exact fun b hb => by simp [DirectiveKind.len] at hb; byte_omega
      · simp
  · rw [ht] at h1
    have hv1 := h1.valid (ht ▸ hv)
    cases k with
    | Version =>
      unfold scanDirective
      refine (eatWs_thin hv1).bind fun c2 h2 => scanVersionNumber_thin.bind fun c3 h3 => .skip fun _ => .skip fun _ =>
        (adv1_thin (h3.valid (h2.valid hv1))).bind fun c4 h4 => scanVersionNumber_thin.bind fun c5 h5 => ?_
      simpa using (((h1.trans h2).trans h3).trans h4).trans h5
    | Tag =>
      unfold scanDirective
      exact (eatWs_thin hv1).bind fun c2 h2 => (scanTagDirective_thin (h2.valid hv1)).mono fun r h3 => (h1.trans h2).trans h3

/-! ### Quoted scalars -/

theorem FlowSt.noBorrow_cur {base : Str} {st : FlowSt} : Out.Par (st.noBorrow base) (fun st' => st'.cur = st.cur) := by
  unfold FlowSt.noBorrow
  split
  · exact .skip fun _ => by simp
  · simp

theorem FlowSt.push_thin {st : FlowSt} (hv : validUtf8 st.cur.buf = true) : Out.Par st.push (fun st' => Thin st.cur.buf st'.cur.buf) := by
  unfold FlowSt.push
  exact (adv1_thin hv).bind fun c1 h1 => by simpa using h1

theorem flowWord_thin {base : Str} {single : Bool} {fuel : Nat} {st : FlowSt} (hv : validUtf8 st.cur.buf = true) :
    Out.Par (flowWord opts base single fuel st) (fun r => Thin st.cur.buf r.2.cur.buf) := by
  induction fuel generalizing st with
  | zero => simp [flowWord]
  | succ fuel ih =>
    rw [flowWord]
    split
    · simp [Thin.refl]
    · refine .skip fun _ => ?_
      split
      · rename_i h
        simp only [Bool.and_eq_true] at h
        obtain ⟨u, hu⟩ := List.isPrefixOf_iff_prefix.1 h.2
        refine FlowSt.noBorrow_cur.bind fun st1 h1 => ?_
        refine (adv_thin (c := st1.cur) (n := 2) (by rw [h1, ← hu]; simp only [List.take_append_of_le_length, List.length_cons, List.length_nil, Nat.le_refl]; unfold Ascii; decide)).bind
          fun c2 h2 => ?_
        rw [h1] at h2
        exact (ih (h2.valid hv)).mono fun _ h3 => h2.trans h3
      · split
        · simp [Thin.refl]
        · split
          · refine FlowSt.noBorrow_cur.bind fun st1 h1 => ?_
            refine (adv1_thin (c := st1.cur) (by rw [h1]; exact hv)).bind fun c2 h2 => ?_
            rw [h1] at h2
            exact (ih (h2.valid hv)).mono fun _ h3 => h2.trans h3
          · split
            · rename_i h
              simp only [Bool.and_eq_true, Bool.not_eq_true', startsWith, beq_iff_eq] at h
              obtain ⟨t, ht⟩ : ∃ t, st.cur.buf = 0x5C :: t := by
                cases hb : st.cur.buf with
                | nil => rw [hb] at h; simp at h
                | cons b t => rw [hb] at h; simp only [List.head?_cons, Option.some.injEq] at h; exact ⟨t, by rw [h.2]⟩
              refine FlowSt.noBorrow_cur.bind fun st1 h1 => ?_
              refine Out.Par.bind (Q := fun r => Ascii (st.cur.buf.take r.2)) ?_ ?_
              · rw [h1, ht]
                intro r hr
                obtain ⟨e, t', h2, h3, h4, -⟩ := (flowUnescape_jams (J := False) rfl (.start (single := false))).1 r hr
                rw [h3, h2, List.take_succ_cons, List.take_left]
                exact .cons (by decide) (escape_ascii h4)
              · rintro ⟨w, n⟩ hn
                refine (adv_thin (c := st1.cur) (n := n) (by rw [h1]; exact hn)).bind fun c2 h2 => ?_
                rw [h1] at h2
                exact (ih (h2.valid hv)).mono fun _ h3 => h2.trans h3
            · exact (FlowSt.push_thin hv).bind fun st1 h1 => (ih (h1.valid hv)).mono fun _ h3 => h1.trans h3

theorem flowSpace_thin {base : Str} {fuel : Nat} {st : FlowSt} (hv : validUtf8 st.cur.buf = true) :
    Out.Par (flowSpace opts base fuel st) (fun r => Thin st.cur.buf r.cur.buf) := by
  induction fuel generalizing st with
  | zero => simp [flowSpace]
  | succ fuel ih =>
    rw [flowSpace]
    refine .skip fun _ => ?_
    split
    · exact (FlowSt.push_thin hv).bind fun st1 h1 => (ih (st := { st1 with whitespace := st1.whitespace + 1 }) (h1.valid hv)).mono fun _ h3 => h1.trans h3
    · split
      · refine FlowSt.noBorrow_cur.bind fun st1 h1 => line_thin.bind fun c2 h2 => ?_
        rw [h1] at h2
        exact (ih (h2.valid hv)).mono fun _ h3 => h2.trans h3
      · simp [Thin.refl]

theorem flowJoin_cur {base : Str} {st : FlowSt} : Out.Par (flowJoin base st) (fun st' => st'.cur = st.cur) := by
  unfold flowJoin
  split
  · simp
  · exact FlowSt.noBorrow_cur.bind fun st1 h1 => .skip fun _ => by simpa using h1
  · exact FlowSt.noBorrow_cur.bind fun st1 h1 => .skip fun _ => by simpa using h1

theorem flowLoop_thin {base : Str} {single : Bool} {fuel : Nat} {st : FlowSt} (hv : validUtf8 st.cur.buf = true) :
    Out.Par (flowLoop opts base single fuel st) (fun r => Thin st.cur.buf r.cur.buf) := by
  induction fuel generalizing st with
  | zero => simp [flowLoop]
  | succ fuel ih =>
    rw [flowLoop]
    refine .skip fun _ => ?_
    split
    · simp
    · split
      · simp
      · refine .skip fun _ => (flowWord_thin (by exact hv)).bind ?_
        rintro ⟨done, st1⟩ h1
        simp only at h1 ⊢
        split
        · simpa using h1
        · have hv1 := h1.valid hv
          refine (flowSpace_thin (by exact hv1)).bind fun st2 h2 => flowJoin_cur.bind fun st3 h3 => ?_
          simp only at h2
          have hv2 := h2.valid hv1
          exact (ih (by rw [h3]; exact hv2)).mono fun _ h4 => (h1.trans h2).trans (h3 ▸ h4)

theorem scanFlowEager_thin {single : Bool} {c : Cur} (hv : validUtf8 c.buf = true) :
    Out.Par (scanFlowEager opts single c) (fun r => Thin c.buf r.2.buf) := by
  unfold scanFlowEager
  refine .skip fun _ => (adv1_thin hv).bind fun c1 h1 => (flowLoop_thin (by exact h1.valid hv)).bind fun st h2 => .skip fun _ => .skip fun _ => ?_
  have hv2 := h2.valid (h1.valid hv)
  refine (adv1_thin hv2).bind fun c3 h3 => ?_
  simpa using (h1.trans h2).trans h3

/-! ### Plain scalars -/

theorem PlainSt.noBorrow_keeps {base : Str} {st : PlainSt} :
    Out.Par (st.noBorrow base) (fun st' => st'.cur = st.cur ∧ st'.scalarStats = st.scalarStats) := by
  unfold PlainSt.noBorrow
  split
  · exact .skip fun _ => by simp
  · simp

/-- The same, and what is read is counted. -/
def Slim (a b : Cur) : Prop := Thin a.buf b.buf ∧ b.stats.read + b.buf.length = a.stats.read + a.buf.length

theorem Slim.trans {a b c : Cur} (h : Slim a b) (h' : Slim b c) : Slim a c := ⟨h.1.trans h'.1, h'.2.trans h.2⟩

theorem adv1_slim {c : Cur} (hv : validUtf8 c.buf = true) : Out.Par (c.adv 1) (Slim c) := by
  intro c' h
  refine ⟨adv1_thin hv c' h, ?_⟩
  unfold Cur.adv at h
  split at h
  · rename_i hb
    cases h
    obtain ⟨buf, m⟩ := c
    cases buf with
    | nil => simp [isBoundary] at hb
    | cons b t => simp [MStats.update]; omega
  · cases h

theorem line_slim {c : Cur} : Out.Par c.line (Slim c) := by
  intro c' h
  refine ⟨line_thin c' h, ?_⟩
  rw [line_par _ h]
  have := breakLen_le c.buf
  simp [MStats.update]; omega

theorem PlainSt.push_slim {st : PlainSt} (hv : validUtf8 st.cur.buf = true) :
    Out.Par st.push (fun st' => Slim st.cur st'.cur ∧ st'.scalarStats = st.scalarStats) := by
  unfold PlainSt.push
  exact (adv1_slim hv).bind fun c1 h1 => by simpa using h1

theorem plainWord_slim {block : Bool} {fuel : Nat} {st : PlainSt} (hv : validUtf8 st.cur.buf = true) :
    Out.Par (plainWord opts block fuel st) (fun st' => Slim st.cur st'.cur) := by
  induction fuel generalizing st with
  | zero => simp [plainWord]
  | succ fuel ih =>
    rw [plainWord]
    split
    · simp [Slim, Thin.refl]
    · refine .skip fun _ => ?_
      split
      · simp [Slim, Thin.refl]
      · exact (PlainSt.push_slim hv).bind fun st1 h1 => (ih (h1.1.1.valid hv)).mono fun _ h3 => h1.1.trans h3

theorem plainSpace_slim {base : Str} {fuel : Nat} {st : PlainSt} (hv : validUtf8 st.cur.buf = true) :
    Out.Par (plainSpace opts base fuel st) (fun st' => Slim st.cur st'.cur ∧ st'.scalarStats = st.scalarStats) := by
  induction fuel generalizing st with
  | zero => simp [plainSpace]
  | succ fuel ih =>
    rw [plainSpace]
    refine .skip fun _ => ?_
    split
    · exact (PlainSt.push_slim hv).bind fun st1 h1 => (ih (st := { st1 with whitespace := st1.whitespace + 1 }) (h1.1.1.valid hv)).mono
        fun _ h3 => ⟨h1.1.trans h3.1, h3.2.trans h1.2⟩
    · split
      · refine PlainSt.noBorrow_keeps.bind fun st1 h1 => line_slim.bind fun c2 h2 => ?_
        rw [h1.1] at h2
        exact (ih (st := { st1 with cur := c2, lines := st1.lines + 1 }) (h2.1.valid hv)).mono fun _ h3 => ⟨h2.trans h3.1, h3.2.trans h1.2⟩
      · simp [Slim, Thin.refl]

theorem plainJoin_keeps {st : PlainSt} : Out.Par (plainJoin st) (fun st' => st'.cur = st.cur ∧ st'.scalarStats = st.scalarStats) := by
  unfold plainJoin
  split
  · simp
  · exact .skip fun _ => by simp
  · exact .skip fun _ => by simp

theorem Slim.drop {a b : Cur} (h : Slim a b) : a.buf.drop (b.stats.read - a.stats.read) = b.buf := by
  obtain ⟨p, hp⟩ := h.1.suffix
  have h2 := h.2
  rw [hp] at h2 ⊢
  simp only [List.length_append] at h2
  have : b.stats.read - a.stats.read = p.length := by omega
  rw [this, List.drop_left]

theorem plainLoop_thin {c : Cur} {base : Str} {indent : Nat} {block : Bool} {fuel : Nat} {st : PlainSt} (hv : validUtf8 c.buf = true)
    (h1 : Slim c st.cur) (h2 : Thin c.buf (c.buf.drop (st.scalarStats.read - c.stats.read))) :
    Out.Par (plainLoop opts base indent block fuel st) (fun st' => Thin c.buf (c.buf.drop (st'.scalarStats.read - c.stats.read))) := by
  induction fuel generalizing st with
  | zero => simp [plainLoop]
  | succ fuel ih =>
    rw [plainLoop]
    refine .skip fun _ => ?_
    split
    · simpa using h2
    · split
      · simpa using h2
      · split
        · simpa using h2
        · split
          · simpa using h2
          · refine (plainWord_slim (by exact h1.1.valid hv)).bind fun st1 g1 => ?_
            have k1 : Slim c st1.cur := h1.trans g1
            refine (plainSpace_slim (by exact k1.1.valid hv)).bind fun st2 g2 => plainJoin_keeps.bind fun st3 g3 => ?_
            simp only at g2 g3
            refine ih ?_ ?_
            · rw [g3.1]; exact k1.trans g2.1
            · rw [g3.2, g2.2, k1.drop]; exact k1.1

theorem scanPlainEager_thin {indent : Nat} {block : Bool} {c : Cur} (hv : validUtf8 c.buf = true) :
    Out.Par (scanPlainEager opts indent block c) (fun r => Thin c.buf r.2.buf) := by
  rw [scanPlainEager_eq]
  refine .skip fun _ => ?_
  split
  · simp
  · refine (plainLoop_thin (c := c) hv ⟨.refl _, rfl⟩ (by simp [Thin.refl])).bind fun st h => .skip fun _ => skip_par.bind fun r hr => ?_
    rw [hr]
    simpa using h

/-! ### Block scalars -/

theorem toBreak_thin {fuel : Nat} {c : Cur} (hv : validUtf8 c.buf = true) : Out.Par (toBreak opts fuel c) (fun c' => Thin c.buf c'.buf) := by
  induction fuel generalizing c with
  | zero => simp [toBreak]
  | succ fuel ih =>
    rw [toBreak]
    split
    · simp [Thin.refl]
    · exact .skip fun _ => (adv1_thin hv).bind fun c1 h1 => (ih (h1.valid hv)).mono fun _ h => h1.trans h

theorem skipBlanksLoop_thin {fuel : Nat} {c : Cur} (hv : validUtf8 c.buf = true) : Out.Par (skipBlanksLoop opts fuel c) (fun c' => Thin c.buf c'.buf) := by
  induction fuel generalizing c with
  | zero => simp [skipBlanksLoop]
  | succ fuel ih =>
    rw [skipBlanksLoop]
    split
    · exact .skip fun _ => (adv1_thin hv).bind fun c1 h1 => (ih (h1.valid hv)).mono fun _ h => h1.trans h
    · simp [Thin.refl]

theorem skipBlanks_thin {c : Cur} (hv : validUtf8 c.buf = true) : Out.Par (skipBlanks opts c) (fun c' => Thin c.buf c'.buf) := by
  unfold skipBlanks
  refine .skip fun _ => (skipBlanksLoop_thin hv).bind fun c1 h1 => ?_
  split
  · exact (toBreak_thin (h1.valid hv)).mono fun _ h => h1.trans h
  · simpa using h1

theorem scanHeaders_thin {c : Cur} (hv : validUtf8 c.buf = true) : Out.Par (scanHeaders opts c) (fun r => Thin c.buf r.2.2.buf) := by
  unfold scanHeaders
  obtain ⟨p, t, h1, h2, h3⟩ := marks_ascii hv
  refine .skip fun _ => (adv_thin (n := marksLen c.buf) ?_).bind fun c1 g1 => ?_
  · rw [← h2, h1, List.take_left]; exact h3
  · simpa using g1

theorem blockHeader_thin {c : Cur} (hv : validUtf8 c.buf = true) : Out.Par (blockHeader opts c) (fun r => Thin c.buf r.2.2.buf) := by
  unfold blockHeader
  refine .skip fun _ => (adv1_thin hv).bind fun c1 h1 => (scanHeaders_thin (h1.valid hv)).bind fun r h2 => ?_
  have hv2 := h2.valid (h1.valid hv)
  refine (skipBlanks_thin hv2).bind fun c3 h3 => .skip fun _ => ?_
  split
  · simp
  · exact line_thin.bind fun c4 h4 => by simpa using ((h1.trans h2).trans h3).trans h4

theorem scanIndentLoop_thin {n fuel l : Nat} {c : Cur} (hv : validUtf8 c.buf = true) :
    Out.Par (scanIndentLoop opts n fuel c l) (fun r => Thin c.buf r.1.buf) := by
  induction fuel generalizing c l with
  | zero => simp [scanIndentLoop]
  | succ fuel ih =>
    rw [scanIndentLoop]
    split
    · split
      · exact (adv1_thin hv).bind fun c1 h1 => .skip fun _ => (ih (h1.valid hv)).mono fun _ h => h1.trans h
      · split
        · simp
        · exact line_thin.bind fun c1 h1 => .skip fun _ => (ih (h1.valid hv)).mono fun _ h => h1.trans h
    · simp [Thin.refl]

theorem scanIndent_thin {n l : Nat} {c : Cur} (hv : validUtf8 c.buf = true) : Out.Par (scanIndent opts n c l) (fun r => Thin c.buf r.1.buf) := by
  unfold scanIndent
  split
  · simp [Thin.refl]
  · exact .skip fun _ => scanIndentLoop_thin hv

theorem eatBreak_thin {l : Nat} {c : Cur} : Out.Par (eatBreak opts c l) (fun r => Thin c.buf r.1.buf) := by
  unfold eatBreak
  refine .skip fun _ => ?_
  split
  · exact line_thin.bind fun c1 h1 => by simpa using h1
  · simp [Thin.refl]

theorem detectBlanks_thin {fuel : Nat} {st : DetectSt} (hv : validUtf8 st.cur.buf = true) :
    Out.Par (detectBlanks opts fuel st) (fun r => Thin st.cur.buf r.cur.buf) := by
  induction fuel generalizing st with
  | zero => simp [detectBlanks]
  | succ fuel ih =>
    rw [detectBlanks]
    split
    · refine .skip fun _ => ?_
      split
      · simp
      · exact (adv1_thin hv).bind fun c1 h1 => (ih (st := { st with cur := c1, canBorrow := st.canBorrow && !(0 < st.lines) }) (h1.valid hv)).mono
          fun _ h => h1.trans h
    · simp [Thin.refl]

theorem detectLoop_thin {fuel : Nat} {st : DetectSt} (hv : validUtf8 st.cur.buf = true) :
    Out.Par (detectLoop opts fuel st) (fun r => Thin st.cur.buf r.cur.buf) := by
  induction fuel generalizing st with
  | zero => simp [detectLoop]
  | succ fuel ih =>
    rw [detectLoop]
    refine .skip fun _ => (detectBlanks_thin hv).bind fun st1 h1 => .skip fun _ => ?_
    simp only
    split
    · exact line_thin.bind fun c1 h2 => (ih (st := ⟨c1, _, _, _⟩) (h2.valid (h1.valid hv))).mono fun _ h => (h1.trans h2).trans h
    · simpa using h1

theorem blockIndent_thin {ex : Option Nat} {base : Nat} {c : Cur} (hv : validUtf8 c.buf = true) :
    Out.Par (blockIndent opts ex base c) (fun r => Thin c.buf r.cur.buf) := by
  unfold blockIndent
  cases ex with
  | some n => simp [Thin.refl]
  | none => exact (detectLoop_thin (st := { cur := c }) hv).bind fun st1 h1 => by simpa using h1

theorem trapdoor_cur {base : Str} {st : BlockSt} : Out.Par (st.trapdoor base) (fun st' => st'.cur = st.cur) := by
  unfold BlockSt.trapdoor
  split
  · exact .skip fun _ => by simp
  · simp

theorem blockLoop_thin {base : Str} {read : Nat} {fold : Bool} {n fuel : Nat} {st : BlockSt} (hv : validUtf8 st.cur.buf = true) :
    Out.Par (blockLoop opts base read fold n fuel st) (fun r => Thin st.cur.buf r.cur.buf) := by
  induction fuel generalizing st with
  | zero => simp [blockLoop]
  | succ fuel ih =>
    rw [blockLoop]
    split
    · refine trapdoor_cur.bind fun st1 h1 => .skip fun _ => ?_
      rw [h1]
      refine (toBreak_thin hv).bind fun c2 h2 => eatBreak_thin.bind fun r3 h3 => ?_
      obtain ⟨c3, l3⟩ := r3
      simp only at h3 ⊢
      refine (scanIndent_thin (h3.valid (h2.valid hv))).bind fun r4 h4 => ?_
      obtain ⟨c4, l4⟩ := r4
      simp only at h4 ⊢
      exact (ih (st := ⟨c4, _, _, _, _, _⟩) (h4.valid (h3.valid (h2.valid hv)))).mono fun _ h => ((h2.trans h3).trans h4).trans h
    · simp [Thin.refl]

theorem scanBlockEager_thin {base : Nat} {fold : Bool} {c : Cur} (hv : validUtf8 c.buf = true) :
    Out.Par (scanBlockEager opts base fold c) (fun r => Thin c.buf r.2.buf) := by
  rw [scanBlockEager_eq]
  refine (blockHeader_thin hv).bind fun r h1 => ?_
  obtain ⟨ch, ex, c1⟩ := r
  simp only at h1 ⊢
  refine (blockIndent_thin (h1.valid hv)).bind fun d h2 => (blockLoop_thin (st := ⟨d.cur, _, _, _, _, _⟩) (h2.valid (h1.valid hv))).bind fun st h3 => .skip fun _ => ?_
  simpa using (h1.trans h2).trans h3

/-! ### The steps -/

/-- It reads only such characters. -/
def Thins (m : Scan α) (s : SS) : Prop := Thin s.buf (m s).2.buf

theorem Still.thins {m : Scan α} (h : Still m) (s : SS) : Thins m s := by
  unfold Thins
  rw [(h s).2]
  exact .refl _

namespace Thins

variable {s : SS}

theorem bind {m : Scan α} {f : α → Scan β} (h : Thins m s) (hf : ∀ a s1, m s = (.ok a, s1) → Thins (f a) s1) : Thins (m >>= f) s := by
  unfold Thins at h hf ⊢
  simp only [Bind.bind, SO.bind]
  generalize hm : m s = r at h
  obtain ⟨o, s1⟩ := r
  cases o with
  | ok a => exact h.trans (hf a s1 hm)
  | err e => exact h
  | panic => exact h
  | diverge => exact h

theorem get {f : SS → Scan β} (hf : Thins (f s) s) : Thins (Scan.get >>= f) s := hf

theorem still {m : Scan α} {f : α → Scan β} (h : Still m) (hf : ∀ a s1, s1.buf = s.buf → Thins (f a) s1) : Thins (m >>= f) s :=
  (h.thins s).bind fun a s1 h1 => hf a s1 (h.buf h1)

theorem ite {c : Prop} [Decidable c] {m m' : Scan α} (h : c → Thins m s) (h' : ¬ c → Thins m' s) : Thins (if c then m else m') s := by
  split
  · exact h ‹_›
  · exact h' ‹_›

theorem sub {m : MStats} {f : Cur → Out ScanError α} {g : α → Scan β} {Q : α → Prop} (h : Out.Par (f ⟨s.buf, m⟩) Q) (hg : ∀ a, Q a → Thins (g a) s) :
    Thins (Scan.sub m f >>= g) s := by
  refine Thins.bind (.refl _) fun a s1 h1 => ?_
  have hx := sub_ok h1
  clear h1
  obtain ⟨h1, rfl⟩ := hx
  exact hg a (h a h1)

theorem commit {b : Str} {m : MStats} (h : Thin s.buf b) : Thins (Scan.commit b m) s := by
  unfold Thins Scan.commit
  split
  · exact h
  · exact .refl _

theorem advance {n : Nat} (h : Ascii (s.buf.take n)) : Thins (Scan.advance n) s := by
  unfold Thins Scan.advance
  have := adv_thin (c := ⟨s.buf, s.sc.stats⟩) h
  generalize Cur.adv ⟨s.buf, s.sc.stats⟩ n = c at this
  cases c with
  | ok c => exact this c rfl
  | _ => exact .refl _

theorem advance1 (hv : validUtf8 s.buf = true) : Thins (Scan.advance 1) s := by
  unfold Thins Scan.advance
  have := adv1_thin (c := ⟨s.buf, s.sc.stats⟩) hv
  generalize Cur.adv ⟨s.buf, s.sc.stats⟩ 1 = c at this
  cases c with
  | ok c => exact this c rfl
  | _ => exact .refl _

theorem finish {t : MaybeToken} {c : Cur} (h : Thin s.buf c.buf) : Thins (Scan.finish t c) s :=
  still .saveKey fun _ s1 h1 => still (.upd _) fun _ s2 h2 => get ((commit (by rw [h2, h1]; exact h)).bind fun _ s3 _ => get ((Still.enqueue _ _).thins s3))

/-- Advancing by one, and adding a token. -/
theorem sign {m : Scan β} (hv : validUtf8 s.buf = true) (h : Still m) : Thins (Scan.advance 1 >>= fun _ => m) s :=
  (advance1 hv).bind fun _ s1 _ => h.thins s1

end Thins

theorem run_thins {s : SS} (hl : opts.lazy = false) (hv : validUtf8 s.buf = true) :
    Thins (Scan.run opts (Scan.dispatch s.sc.context s.sc.stats.column s.buf)) s := by
  have hd := dispatch_says s.sc.context s.sc.stats.column s.buf
  generalize Scan.dispatch s.sc.context s.sc.stats.column s.buf = f at hd
  cases f with
  | directive =>
    obtain ⟨h1, hd⟩ := hd
    exact .sub (directiveToken_thin (c := ⟨s.buf, {}⟩) hv hd) fun a ha => .still (.unroll _) fun _ s2 h2 => .still .removeKey fun _ s3 h3 =>
      .still (.upd _) fun _ s4 h4 => .get ((Thins.commit (by rw [h4, h3, h2]; exact ha)).bind fun _ s5 _ => (Still.push _).thins s5)
  | marker start =>
    obtain ⟨-, t, ht, -⟩ := hd
    refine .still (.unroll _) fun _ s1 h1 => .still .removeKey fun _ s2 h2 => .still (.upd _) fun _ s3 h3 =>
      (Thins.advance ?_).bind fun _ s4 _ => (Still.push _).thins s4
    rw [h3, h2, h1, ht]
    cases start <;> (unfold Ascii; simp)
  | flowStart map =>
    exact .still (.upd _) fun _ s1 h1 => .sign (by rw [h1]; exact hv) ((Still.push _).bind fun _ => Still.saveKey.bind fun _ => .upd _)
  | flowEnd map =>
    refine .still .removeKey fun _ s1 h1 => .get (.still (.lift ?_) fun _ s2 h2 => .still (.upd _) fun _ s3 h3 => .sign (by rw [h3, h2, h1]; exact hv) (.push _))
    unfold Context.flowDecrement
    split <;> simp
  | flowEntry => exact .still .removeKey fun _ s1 h1 => .still (.upd _) fun _ s2 h2 => .sign (by rw [h2, h1]; exact hv) (.push _)
  | blockEntry =>
    exact .still .blockEntryCheck fun _ s1 h1 => .still (.upd _) fun _ s2 h2 => .still .removeKey fun _ s3 h3 => .still (.upd _) fun _ s4 h4 =>
      .sign (by rw [h4, h3, h2, h1]; exact hv) (.push _)
  | explicitKey =>
    exact .get (.still .explicitKeyCheck fun _ s1 h1 => .still .removeKey fun _ s2 h2 => .still (.upd _) fun _ s3 h3 =>
      .sign (by rw [h3, h2, h1]; exact hv) (.push _))
  | value => exact .still .takeKey fun _ s1 h1 => .still (.valueKey _) fun _ s2 h2 => .sign (by rw [h2, h1]; exact hv) (.push _)
  | anchor => exact .get (.sub (scanAnchor_thin (c := ⟨s.buf, {}⟩) hv) fun _ ha => .finish ha)
  | tag => exact .sub (scanNodeTag_thin (c := ⟨s.buf, {}⟩) hv) fun _ ha => .finish ha
  | block fold =>
    refine .still .removeKey fun _ s1 h1 => .still (.upd _) fun _ s2 h2 => .get ?_
    refine .sub (Q := fun r => Thin s2.buf r.2.buf) ?_ fun _ ha => (Thins.commit ha).bind fun _ s3 _ => (Still.enqueue _ _).thins s3
    unfold scanBlock
    rw [hl]
    refine Out.Par.bind (scanBlockEager_thin (c := ⟨s2.buf, s2.sc.stats⟩) (by rw [h2, h1]; exact hv)) fun r h => ?_
    simpa using h
  | quoted =>
    refine .get (.sub (Q := fun r => Thin s.buf r.2.buf) ?_ fun _ ha => .finish ha)
    unfold scanFlow
    rw [hl]
    refine Out.Par.bind (scanFlowEager_thin (c := ⟨s.buf, {}⟩) hv) fun r h => ?_
    simpa using h
  | plain =>
    refine .get (.sub (Q := fun r => Thin s.buf r.2.buf) ?_ fun _ ha => .still .saveKey fun _ s2 h2 => .still (.upd _) fun _ s3 h3 =>
      (Thins.commit (by rw [h3, h2]; exact ha)).bind fun _ s4 _ => (Still.enqueue _ _).thins s4)
    unfold scanPlain
    rw [hl]
    refine Out.Par.bind (scanPlainEager_thin (c := ⟨s.buf, s.sc.stats⟩) hv) fun r h => ?_
    simpa using h
  | unknown => exact (Still.fail _).thins s

theorem prepare_thins {s : SS} (hv : validUtf8 s.buf = true) : Thins (Scan.prepare opts) s :=
  Thins.bind (.sub (eatWs_thin (c := ⟨s.buf, {}⟩) hv) fun _ hc => .still (.upd _) fun _ s2 h2 => .get (.commit (by rw [h2]; exact hc)))
    fun _ s1 _ => (Still.expireKey.bind fun _ => Still.get.bind fun _ => (Still.unroll _).bind fun _ => Still.popZero).thins s1

/-- **A step** reads only characters of one byte and line breaks, whatever becomes of it. -/
theorem step_thins {s : SS} (hl : opts.lazy = false) (hv : validUtf8 s.buf = true) : Thins (Scan.scanNextToken opts) s := by
  refine .get (.ite (fun _ => ((Still.upd _).bind fun _ => .push _).thins s) fun _ => ?_)
  refine Thins.bind (prepare_thins hv) fun _ s1 h1 => ?_
  have hv1 : validUtf8 s1.buf = true := by
    have := prepare_thins (opts := opts) hv
    unfold Thins at this
    rw [h1] at this
    exact this.valid hv
  refine .get (.ite (fun _ => Still.streamEnd.thins s1) fun _ => ?_)
  refine Thins.bind (.refl _) fun _ s2 h2 => ?_
  have : s2 = s1 := by
    simp only [SO.lift, Prod.mk.injEq] at h2
    exact h2.2.symm
  subst this
  exact run_thins hl hv1

/-- Whatever is done, what has been read are characters of one byte and line breaks. -/
theorem reach_thin {errs : Bool} {base : Str} {s : SS} (hl : opts.lazy = false) (hv : validUtf8 base = true) (h : Reach errs opts base s) :
    Thin base s.buf := by
  induction h with
  | start => exact .refl _
  | @step s s' h hd hs ih =>
    have := step_thins hl (ih.valid hv)
    unfold Thins at this
    rw [hs] at this
    exact ih.trans this
  | fail he h hd hs ih => exact ih
  | @more s s' he h hd hs ih =>
    have := step_thins hl (ih.valid hv)
    unfold Thins at this
    rw [hs] at this
    exact ih.trans this
  | hand h ih => exact ih
  | offset n h ih => exact ih

end Yary
