import Verif.Proof.Moved.Lead
import Verif.Proof.Scan.Cost

/-! # Calls of the scanner on a text with empty lines before it -/

namespace Yary.Moved

open Yary.Shift (Alike)
open Spec

variable {opts : SFlags} {w l : Nat}

theorem Pair.bind {σ τ ε α β γ δ : Type} {E : Option ε → Prop} {S : σ → τ → Prop} {Q : α → β → Prop} {Q' : γ → δ → Prop}
    {x : SO σ ε α} {y : SO τ ε β} {f : α → SO σ ε γ} {g : β → SO τ ε δ} {s : σ} {t : τ} (h : Pair E S Q (x s) (y t))
    (h' : ∀ a b, Q a b → Rel E S Q' (f a) (g b)) : Pair E S Q' ((x >>= f) s) ((y >>= g) t) := by
  show Pair E S Q' (SO.bind x f s) (SO.bind y g t)
  unfold SO.bind
  generalize x s = r at h ⊢
  generalize y t = r' at h ⊢
  cases h with
  | ok hq hs => exact h' _ _ hq _ _ hs
  | err h => exact .err h
  | panic => exact .panic
  | diverge h => exact .diverge (h.imp_right fun h => by obtain ⟨o, t⟩ := r'; cases h; rfl)

theorem eatLoop_length : ∀ fuel {chomp : Bool} {c c' : Cur}, eatWsLoop opts true fuel chomp c = .ok c' → c'.buf.length ≤ c.buf.length
  | 0, _, _, _, h => by cases h
  | fuel + 1, chomp, c, c', h => by
    have ha : ∀ {ch}, (c.adv 1 >>= fun c => eatWsLoop opts true fuel ch c) = .ok c' → c'.buf.length ≤ c.buf.length := by
      intro ch h
      obtain ⟨c1, h1, h2⟩ := Out.bind_eq_ok.1 h
      have := eatLoop_length fuel h2
      unfold Cur.adv at h1
      split at h1 <;> cases h1
      simp at this
      omega
    rw [eatWsLoop] at h
    obtain ⟨_, -, h⟩ := Out.bind_eq_ok.1 h
    split at h
    · exact ha h
    · split at h
      · obtain ⟨c1, h1, h2⟩ := Out.bind_eq_ok.1 h
        have := eatLoop_length fuel h2
        unfold Cur.line at h1
        split at h1 <;> cases h1
        simp at this
        omega
      · split at h
        · exact ha h
        · split at h
          · exact ha h
          · cases h; exact Nat.le_refl _

/-- White space before a text, and empty lines before it. -/
theorem eat_lead {W B : Str} (hx : opts.extendable = false) (hW : EmptyLines W) (hB : validUtf8 B = true) :
    ∃ l, eatWs opts true ⟨B, {}⟩ = .diverge ∨ Alike (Mv W.length l) (eatWs opts true ⟨B, {}⟩) (eatWs opts true ⟨W ++ B, {}⟩) := by
  have fore : ∀ {s : Str}, validUtf8 s = true → Fore s := by
    intro s hs c t he
    subst he
    exact validUtf8_head hs
  have hB' : ∀ u, B = 0x0A :: u → Fore u := by
    rintro u rfl
    exact fore (validUtf8_drop_ascii (p := [0x0A]) (t := u) (by simp [Ascii]) hB)
  have key : ∀ {f f' : Nat} {c c' : Cur} {l : Nat}, f ≤ f' → Mv W.length l c c' →
      eatWsLoop opts true f false c = .diverge ∨ Alike (Mv W.length l) (eatWsLoop opts true f false c) (eatWsLoop opts true f' false c') := by
    intro f f' c c' l hf hc
    by_cases hd : eatWsLoop opts true f false c = .diverge
    · exact .inl hd
    · have h1 := eatLoop_mv (opts := opts) f (chomp := false) hc
      have h2 : eatWsLoop opts true f false c' ≠ .diverge := by
        intro h
        rw [h] at h1
        cases h3 : eatWsLoop opts true f false c <;> rw [h3] at h1 <;> first | exact h1 | exact hd h3
      rw [show f' = f + (f' - f) by omega, eatLoop_more f (f' - f) h2]
      exact .inr h1
  rcases walk_lines hx (fore hB) hB' W.length (m := {}) (Nat.le_refl _) hW rfl with ⟨l, k, hk, h⟩ | ⟨l, B', rfl, k, hk, h⟩
  · refine ⟨l, ?_⟩
    unfold eatWs
    dsimp only
    have hF : (W ++ B).length + 1 = (B.length + 1 + (W.length - k)) + k := by simp; omega
    rw [hF, h]
    exact key (by omega) ⟨rfl, rfl⟩
  · refine ⟨l, ?_⟩
    unfold eatWs
    dsimp only
    have hF : (W ++ 0x0A :: B').length + 1 = (B'.length + 1 + 1 + (W.length - k)) + k := by simp; omega
    rw [hF, h]
    obtain ⟨k1, hk1, h1⟩ := walk_break hx (ch := false) (m := {}) (s := 0x0A :: B') (p := [0x0A]) (rest := B') rfl rfl rfl (hB' _ rfl)
    have h2 := h1 ((0x0A :: B').length + 1 - k1)
    rw [show (0x0A :: B').length + 1 - k1 + k1 = (0x0A :: B').length + 1 by simp; omega] at h2
    rw [h2]
    refine key (by simp; omega) ⟨rfl, ?_⟩
    show _ = MStats.mv W.length l (MStats.update {} 1 1 0)
    simp only [MStats.mv, MStats.update, MStats.mk.injEq]
    refine ⟨by omega, by omega, rfl⟩

/-- The scanner after `StreamStart`. -/
def begun : Scanner := { state := .Stream, simpleKeyAllowed := true }

theorem eatWhitespace_eq {s : SS} : Scan.eatWhitespace opts s = match eatWs opts true ⟨s.buf, {}⟩ with
    | .ok c => Scan.commit c.buf (s.sc.stats.add c.stats) { s with sc := { s.sc with simpleKeyAllowed := if c.stats.lines ≠ 0 then true else s.sc.simpleKeyAllowed } }
    | .err e => (.err e, s)
    | .panic => (.panic, s)
    | .diverge => (.diverge, s) := by
  simp only [Scan.eatWhitespace, Scan.sub, Bind.bind, SO.bind, Scan.get, SO.get, SO.lift]
  cases eatWs opts true ⟨s.buf, {}⟩ <;> rfl

/-- The first white space. -/
theorem eatWhitespace_lead {W B : Str} (hx : opts.extendable = false) (hW : EmptyLines W) (hB : validUtf8 B = true) :
    ∃ l, Pair (fun _ => True) (SSR W.length l) Eq (Scan.eatWhitespace opts ⟨begun, B, []⟩) (Scan.eatWhitespace opts ⟨begun, W ++ B, []⟩) := by
  obtain ⟨l, h⟩ := eat_lead hx hW hB
  refine ⟨l, ?_⟩
  rw [eatWhitespace_eq, eatWhitespace_eq]
  dsimp only
  rcases h with h | h
  · rw [h]; exact .diverge (.inl trivial)
  · generalize hb : eatWs opts true ⟨B, {}⟩ = x at h
    generalize eatWs opts true ⟨W ++ B, {}⟩ = y at h
    cases x <;> cases y <;> first | exact h.elim | skip
    · rename_i c c'
      have hl := eatLoop_length _ hb
      dsimp only at hl ⊢
      unfold Scan.commit
      dsimp only
      rw [h.1, show (W ++ B).length - c.buf.length = B.length - c.buf.length + W.length by simp; omega, boundary_lead hB]
      split
      · refine .ok rfl ⟨⟨rfl, by simp [begun], ?_, rfl, rfl⟩, rfl, rfl⟩
        show MStats.add {} c'.stats = _
        rw [h.2]
        simp only [MStats.add, MStats.update, MStats.mv, MStats.mk.injEq, begun]
        refine ⟨by omega, by omega, ?_⟩
        simp
      · exact .panic
    · cases h; exact .err (.inl trivial)
    · exact .panic
    · exact .diverge (.inl trivial)

/-- What stands between the white space and the token. -/
def settle : Scan Unit := do
  Scan.expireKey
  let s ← Scan.get
  Scan.unrollIndent (some s.sc.stats.column)
  Scan.popZeroIndent

theorem settle_mv : Same w l Eq settle settle := by
  refine .bind expireKey_mv fun _ _ _ => get_mv fun a b h => ?_
  rw [col_mv h]
  exact .bind (unrollIndent_mv _) fun _ _ _ => popZeroIndent_mv

/-- The first token. -/
theorem scanNextToken_lead {W B : Str} (hx : opts.extendable = false) (hW : EmptyLines W) (hB : validUtf8 B = true) :
    ∃ l, Pair (fun _ => True) (SSR W.length l) Eq (Scan.scanNextToken opts ⟨begun, B, []⟩) (Scan.scanNextToken opts ⟨begun, W ++ B, []⟩) := by
  obtain ⟨l, h⟩ := eatWhitespace_lead hx hW hB
  refine ⟨l, ?_⟩
  have h1 : Pair (fun _ => True) (SSR W.length l) Eq (Scan.prepare opts ⟨begun, B, []⟩) (Scan.prepare opts ⟨begun, W ++ B, []⟩) :=
    Pair.bind (f := fun _ => settle) (g := fun _ => settle) h fun _ _ _ => settle_mv
  exact Pair.bind (f := fun _ => Scan.fetchNext opts) (g := fun _ => Scan.fetchNext opts) h1 fun _ _ _ => fetchNext_mv

/-- A scanner that much further on. -/
def At (W : Str) (w l : Nat) (sc sc' : Scanner) : Prop := ScR w l sc sc' ∧ sc'.offset = sc.offset + W.length

/-- What two calls return. -/
abbrev LP (W : Str) (w l : Nat) (r r' : Out ScanError Unit × Scanner × List TokenEntry) : Prop :=
  Pair (fun _ => True) (fun a b => At W w l a.1 b.1 ∧ b.2 = a.2.map (TokenEntry.mv w l)) Eq r r'

/-- The end of a turn of the loop. -/
def endTurn (opts : SFlags) (base : Str) (f : Nat) : Out ScanError Unit × SS → Out ScanError Unit × Scanner × List TokenEntry
  | (.ok _, s) => scanLoop opts base f { s.sc with offset := base.length - s.buf.length } s.out
  | (.err e, s) =>
    if e = .Extend then (.err e, { s.sc with offset := base.length - s.buf.length }, s.out)
    else (.err e, s.sc, s.out)
  | (.panic, s) => (.panic, s.sc, s.out)
  | (.diverge, s) => (.diverge, s.sc, s.out)

theorem loop_turn {base : Str} {f : Nat} {sc : Scanner} {out : List TokenEntry} : scanLoop opts base (f + 1) sc out =
    if sc.state ≠ .Done && (out.isEmpty || sc.keyPossible) then
      if isBoundary base sc.offset then endTurn opts base f (Scan.scanNextToken opts ⟨sc, base.drop sc.offset, out⟩)
      else scanLoop opts base f sc out
    else (.ok (), sc, out) := by
  rw [scanLoop]
  split
  · split
    · generalize Scan.scanNextToken opts ⟨sc, base.drop sc.offset, out⟩ = x
      obtain ⟨o, s⟩ := x
      cases o <;> rfl
    · rfl
  · rfl

theorem turn {W base : Str} {f f' : Nat} {x y : Out ScanError Unit × SS} (hp : Pair (fun _ => True) (SSR w l) Eq x y)
    (hlen : ∀ s, x = (.ok (), s) → s.buf.length ≤ base.length)
    (ih : ∀ sc sc' out, At W w l sc sc' → LP W w l (scanLoop opts base f sc out) (scanLoop opts (W ++ base) f' sc' (out.map (TokenEntry.mv w l)))) :
    LP W w l (endTurn opts base f x) (endTurn opts (W ++ base) f' y) := by
  cases hp with
  | @ok a b s t hq hs =>
    have := hlen s rfl
    unfold endTurn
    dsimp only
    rw [hs.out]
    refine ih _ _ _ ⟨⟨hs.sc.state, hs.sc.simple, hs.sc.stats, hs.sc.key, hs.sc.context⟩, ?_⟩
    dsimp only
    rw [hs.buf, List.length_append]
    omega
  | err h =>
    unfold endTurn
    dsimp only
    split <;> exact .err (.inl trivial)
  | panic => exact .panic
  | diverge => exact .diverge (.inl trivial)

theorem loop_mv {W base : Str} (hv : validUtf8 base = true) : ∀ (f f' : Nat) {sc sc' : Scanner} {out : List TokenEntry}, f ≤ f' → At W w l sc sc' →
    LP W w l (scanLoop opts base f sc out) (scanLoop opts (W ++ base) f' sc' (out.map (TokenEntry.mv w l)))
  | 0, _, _, _, _, _, _ => .diverge (.inl trivial)
  | f + 1, f', sc, sc', out, hf, h => by
    obtain ⟨g, rfl⟩ : ∃ g, f' = g + 1 := ⟨f' - 1, by omega⟩
    have ih := fun sc sc' out (h : At W w l sc sc') => loop_mv hv f g (sc := sc) (sc' := sc') (out := out) (by omega) h
    have hk : sc'.keyPossible = sc.keyPossible := by
      unfold Scanner.keyPossible
      rw [h.1.key]
      cases sc.key <;> rfl
    have he : (out.map (TokenEntry.mv w l)).isEmpty = out.isEmpty := by cases out <;> rfl
    rw [loop_turn, loop_turn, h.1.state, hk, he, h.2, boundary_lead hv]
    split
    · rename_i hc
      split
      · rename_i hb
        refine turn ?_ ?_ ih
        · exact scanNextToken_mv _ _ ⟨h.1, by dsimp only; rw [Nat.add_comm, List.drop_length_add_append], rfl⟩
        · intro s hs
          have := Cost.step_length (s := ⟨sc, base.drop sc.offset, out⟩) (validUtf8_drop hv hb) (by
            simp only [Bool.and_eq_true, decide_eq_true_eq] at hc
            exact hc.1) hs
          simp at this
          omega
      · have := ih sc sc' out h
        rename_i hb
        have hd : ∀ n, ∃ x, scanLoop opts base n sc out = (.diverge, x) := by
          intro n
          induction n with
          | zero => exact ⟨_, rfl⟩
          | succ n ihn => rw [loop_turn, if_pos hc, if_neg hb]; exact ihn
        obtain ⟨x, hd⟩ := hd f
        rw [hd]
        exact .diverge (.inl trivial)
    · exact .ok rfl ⟨h, rfl⟩

/-- The scanner after `StreamStart`, or later. -/
def From (W : Str) (l : Nat) (sc sc' : Scanner) : Prop := At W W.length l sc sc' ∨ (sc = begun ∧ sc' = begun)

/-- A call of the scanner on the text, and on the text after empty lines. -/
theorem loop_lead {W B : Str} (hx : opts.extendable = false) (hW : EmptyLines W) (hB : validUtf8 B = true) :
    ∃ l, ∀ sc sc', From W l sc sc' → LP W W.length l (scanTokens opts B sc) (scanTokens opts (W ++ B) sc') := by
  obtain ⟨l, hl⟩ := scanNextToken_lead hx hW hB
  refine ⟨l, ?_⟩
  rintro sc sc' (h | ⟨rfl, rfl⟩)
  · exact loop_mv (out := []) hB _ _ (by simp) h
  · show LP W W.length l (scanLoop opts B (B.length + 2 + 1) begun []) (scanLoop opts (W ++ B) ((W ++ B).length + 2 + 1) begun [])
    rw [loop_turn, loop_turn]
    refine turn (x := Scan.scanNextToken opts ⟨begun, B, []⟩) (y := Scan.scanNextToken opts ⟨begun, W ++ B, []⟩) hl ?_ ?_
    · intro s hs
      exact Cost.step_length (s := ⟨begun, B, []⟩) hB (by simp [begun]) hs
    · intro sc sc' out h
      exact loop_mv hB _ _ (by simp) h

/-- What two calls of the source return. -/
abbrev DP (V : Prop) (w l : Nat) (F : Scanner → Scanner → Prop) (r r' : Out ReaderError Unit × List TokenEntry × Scanner) : Prop :=
  Pair (fun e => e = none → V) (fun a b => b.1 = a.1.map (TokenEntry.mv w l) ∧ F a.2 b.2) Eq r r'

theorem drive_lead {W B : Str} (hW : EmptyLines W) (hB : validUtf8 B = true) :
    ∃ l, ∀ sc sc', From W l sc sc' → DP True W.length l (From W l) (borrowDrive opts B sc) (borrowDrive opts (W ++ B) sc') := by
  obtain ⟨l, h⟩ := loop_lead (opts := { opts with extendable := false }) rfl hW hB
  refine ⟨l, fun sc sc' hs => ?_⟩
  have h := h sc sc' hs
  unfold borrowDrive
  generalize scanTokens { opts with extendable := false } B sc = x at h ⊢
  generalize scanTokens { opts with extendable := false } (W ++ B) sc' = y at h ⊢
  cases h with
  | ok hq hs => exact .ok rfl ⟨hs.2, .inl hs.1⟩
  | err h => exact .err (.inl (by intro h; cases h))
  | panic => exact .panic
  | diverge => exact .diverge (.inl fun _ => trivial)

end Yary.Moved
