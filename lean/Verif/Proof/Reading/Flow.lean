import Verif.Proof.Reading.Leaves

/-! # Flow collections are read -/

namespace Yary.Reading

open Spec

variable {opts : SFlags} {base : Str}

/-! ## Indicators -/

theorem advance_st (hA : Ascii base) {b : Byte} {u : Str} {al : Bool} {key : Option KeySave} {cxt : Context} {out : List TokenEntry}
    (hs : On base (b :: u)) (hb : isBreak (b :: u) = false) :
    Passes base (b :: u) u ∧ lineOf base u = lineOf base (b :: u) ∧ (place base u).read = (place base (b :: u)).read + 1 ∧
      Scan.advance 1 (st base (b :: u) al key cxt out) = (.ok (), st base u al key cxt out) := by
  have hr : Reads ⟨b :: u, place base (b :: u)⟩ ⟨u, (place base (b :: u)).update 1 0 1⟩ := .byte hb (.refl _)
  obtain ⟨h1, h2⟩ := hs.passes hr
  have hbd := boundary_suffix (s := b :: u) (p := [b]) (r := u) rfl (hs.ascii hA)
  have e1 : (b :: u).length - u.length = 1 := by simp
  rw [e1] at hbd
  refine ⟨h2, ?_, ?_, ?_⟩
  · unfold lineOf
    rw [← h1]
    simp [MStats.update]
  · rw [← h1]
    simp [MStats.update]
  · unfold Scan.advance Cur.adv
    simp only [st, hbd, ↓reduceIte, List.drop_one, List.tail_cons, h1]

theorem push_st {t : Str} {al : Bool} {key : Option KeySave} {cxt : Context} {out : List TokenEntry} (tok : Token) :
    Scan.push tok (st base t al key cxt out) = (.ok (), st base t al key cxt (out ++ [⟨.Token tok, (place base t).read⟩])) := rfl

theorem allow_st {t : Str} {al : Bool} {key : Option KeySave} {cxt : Context} {out : List TokenEntry} (al' : Bool) :
    Scan.upd (fun sc => { sc with simpleKeyAllowed := al' }) (st base t al key cxt out) = (.ok (), st base t al' key cxt out) := rfl

theorem not_break {b : Byte} {u : Str} (h : NoBrk b) : isBreak (b :: u) = false := NoBrk.isBreak h

/-- `[` or `{`. -/
theorem open_fetch (hx : opts.extendable = false) (hA : Ascii base) (map : Bool) {u : Str} {al : Bool} {key : Option KeySave} {cxt : Context}
    {out : List TokenEntry} (hs : On base ((if map then b! '{' else b! '[') :: u)) (hk : al = true → Loose key) :
    Scan.fetchNext opts (st base ((if map then b! '{' else b! '[') :: u) al key cxt out) =
      (.ok (), st base u true (savedKey base u al cxt.flowIncrement key) cxt.flowIncrement
        (out ++ [⟨.Token (if map then .FlowMappingStart else .FlowSequenceStart), (place base u).read⟩])) := by
  rw [fetchNext_run hx (by simp)]
  have hd : Scan.dispatch cxt (columnOf base ((if map then b! '{' else b! '[') :: u)) ((if map then b! '{' else b! '[') :: u) = .flowStart map := by
    unfold Scan.dispatch
    cases map <;> simp [startsWith, startsMarker]
  rw [hd]
  simp only [Scan.run, Scan.fetchFlowStart]
  rw [bind_run (m := Scan.upd _) (a := ()) (s1 := st base ((if map then b! '{' else b! '[') :: u) al key cxt.flowIncrement out) rfl]
  rw [bind_run (advance_st hA hs (by cases map <;> exact not_break (by decide))).2.2.2]
  rw [bind_run (push_st _), bind_run (saveKey_st hk)]
  exact allow_st true

/-- `]` or `}`. -/
theorem close_fetch (hx : opts.extendable = false) (hA : Ascii base) (map : Bool) {u : Str} {al : Bool} {key : Option KeySave} {cxt : Context} {f : Nat}
    {out : List TokenEntry} (hs : On base ((if map then b! '}' else b! ']') :: u)) (hk : Loose key) (hf : cxt.flow = f + 1) :
    Scan.fetchNext opts (st base ((if map then b! '}' else b! ']') :: u) al key cxt out) =
      (.ok (), st base u false none { cxt with flow := f } (out ++ [⟨.Token (if map then .FlowMappingEnd else .FlowSequenceEnd), (place base u).read⟩])) := by
  rw [fetchNext_run hx (by simp)]
  have hd : Scan.dispatch cxt (columnOf base ((if map then b! '}' else b! ']') :: u)) ((if map then b! '}' else b! ']') :: u) = .flowEnd map := by
    unfold Scan.dispatch
    cases map <;> simp [startsWith, startsMarker]
  rw [hd]
  simp only [Scan.run, Scan.fetchFlowEnd]
  rw [bind_run (removeKey_run hk)]
  rw [bind_run (m := Scan.get) (a := st base ((if map then b! '}' else b! ']') :: u) al none cxt out) (s1 := st base ((if map then b! '}' else b! ']') :: u) al none cxt out) rfl]
  have hfd : cxt.flowDecrement = .ok { cxt with flow := f } := by
    unfold Context.flowDecrement
    rw [hf]
  rw [bind_run (a := { cxt with flow := f }) (s1 := st base ((if map then b! '}' else b! ']') :: u) al none cxt out) (by simp [SO.lift, st, hfd])]
  rw [bind_run (m := Scan.upd _) (a := ()) (s1 := st base ((if map then b! '}' else b! ']') :: u) false none { cxt with flow := f } out) rfl]
  rw [bind_run (advance_st hA hs (by cases map <;> exact not_break (by decide))).2.2.2]
  exact push_st _

/-- `,`. -/
theorem comma_fetch (hx : opts.extendable = false) (hA : Ascii base) {u : Str} {al : Bool} {key : Option KeySave} {cxt : Context}
    {out : List TokenEntry} (hs : On base (b! ',' :: u)) (hk : Loose key) :
    Scan.fetchNext opts (st base (b! ',' :: u) al key cxt out) = (.ok (), st base u true none cxt (out ++ [⟨.Token .FlowEntry, (place base u).read⟩])) := by
  rw [fetchNext_run hx (by simp)]
  have hd : Scan.dispatch cxt (columnOf base (b! ',' :: u)) (b! ',' :: u) = .flowEntry := by
    unfold Scan.dispatch
    simp [startsWith, startsMarker]
  rw [hd]
  simp only [Scan.run, Scan.fetchFlowEntry]
  rw [bind_run (removeKey_run hk), bind_run (allow_st true)]
  rw [bind_run (advance_st hA hs (not_break (by decide))).2.2.2]
  exact push_st _

/-- `?` in a flow collection. -/
theorem query_flow (hx : opts.extendable = false) (hA : Ascii base) {u : Str} {al : Bool} {key : Option KeySave} {cxt : Context}
    {out : List TokenEntry} (hs : On base (b! '?' :: u)) (hk : Loose key) (hf : cxt.isBlock = false) :
    Scan.fetchNext opts (st base (b! '?' :: u) al key cxt out) = (.ok (), st base u false none cxt (out ++ [⟨.Token .Key, (place base u).read⟩])) := by
  rw [fetchNext_run hx (by simp)]
  have hd : Scan.dispatch cxt (columnOf base (b! '?' :: u)) (b! '?' :: u) = .explicitKey := by
    have : cxt.isFlow = true := by simpa [Context.isBlock, Context.isFlow] using hf
    unfold Scan.dispatch
    simp [startsWith, startsMarker, this]
  rw [hd]
  simp only [Scan.run, Scan.fetchExplicitKey]
  rw [bind_run (m := Scan.get) (a := st base (b! '?' :: u) al key cxt out) (s1 := st base (b! '?' :: u) al key cxt out) rfl]
  have hc : Scan.explicitKeyCheck (st base (b! '?' :: u) al key cxt out) = (.ok (), st base (b! '?' :: u) al key cxt out) := by
    unfold Scan.explicitKeyCheck
    rw [bind_run (m := Scan.get) (a := st base (b! '?' :: u) al key cxt out) (s1 := st base (b! '?' :: u) al key cxt out) rfl]
    show (if cxt.isBlock = true then _ else pure () : Scan Unit) _ = _
    rw [if_neg (by simp [hf])]
    rfl
  rw [bind_run hc, bind_run (removeKey_run hk)]
  have hal : Scan.upd (fun sc => { sc with simpleKeyAllowed := (st base (b! '?' :: u) al key cxt out).sc.context.isBlock }) (st base (b! '?' :: u) al none cxt out) =
      (.ok (), st base (b! '?' :: u) false none cxt out) := by
    rw [show (st base (b! '?' :: u) al key cxt out).sc.context.isBlock = false from hf]
    rfl
  rw [bind_run hal]
  rw [bind_run (advance_st hA hs (not_break (by decide))).2.2.2]
  exact push_st _

theorem takeKey_run {s : Str} {al : Bool} {key : Option KeySave} {cxt : Context} {out : List TokenEntry} :
    Scan.takeKey (st base s al key cxt out) = (.ok key, st base s al none cxt out) := rfl

theorem dispatch_value {cxt : Context} {u : Str} (h : cxt.isBlock = true → EndsHere u) (c : Nat) : Scan.dispatch cxt c (b! ':' :: u) = .value := by
  have : (isWhiteSpaceZ u || cxt.isFlow) = true := by
    cases hb : cxt.isBlock with
    | true => rw [isWhiteSpaceZ_iff.2 (h hb)]; rfl
    | false =>
      have : cxt.isFlow = true := by simpa [Context.isBlock, Context.isFlow] using hb
      simp [this]
  unfold Scan.dispatch
  simp [startsWith, startsMarker] at this ⊢
  intro h1 h2
  rcases this with h | h
  · exact absurd h (by simp [h1])
  · exact absurd h (by simp [h2])

/-- `:` after a key, in a flow collection. -/
theorem value_flow (hx : opts.extendable = false) (hA : Ascii base) {s u : Str} {al d : Bool} {cxt : Context}
    {out : List TokenEntry} (hs : On base (b! ':' :: u)) (hf : cxt.isBlock = false) :
    Scan.fetchNext opts (st base (b! ':' :: u) al (some (.new (place base s) d)) cxt out) =
      (.ok (), st base u false none cxt (out ++ [⟨.Token .Key, (place base s).read⟩] ++ [⟨.Token .Value, (place base u).read⟩])) := by
  rw [fetchNext_run hx (by simp), dispatch_value (by simp [hf])]
  simp only [Scan.run, Scan.fetchValue]
  rw [bind_run takeKey_run]
  have hv : Scan.valueKey (some (.new (place base s) d)) (st base (b! ':' :: u) al none cxt out) =
      (.ok (), st base (b! ':' :: u) false none cxt (out ++ [⟨.Token .Key, (place base s).read⟩])) := by
    have : (KeySave.new (place base s) d).possible.allowed = true := by cases d <;> rfl
    simp only [Scan.valueKey, this, ↓reduceIte, Scan.valueSaved]
    have hr : Scan.rollIndent (KeySave.new (place base s) d).stats.read (KeySave.new (place base s) d).stats.lines (KeySave.new (place base s) d).stats.column true
        (st base (b! ':' :: u) al none cxt out) = (.ok (), st base (b! ':' :: u) al none cxt out) := by
      unfold Scan.rollIndent
      rw [bind_run (m := Scan.get) (a := st base (b! ':' :: u) al none cxt out) (s1 := st base (b! ':' :: u) al none cxt out) rfl]
      show (if cxt.isBlock = true then _ else pure () : Scan Unit) _ = _
      rw [if_neg (by simp [hf])]
      rfl
    rw [bind_run hr]
    rfl
  rw [bind_run hv]
  rw [bind_run (advance_st hA hs (not_break (by decide))).2.2.2]
  exact push_st _

theorem valueKey_idle {key : Option KeySave} (h : Idle key) : Scan.valueKey key = Scan.valueBare := by
  cases key with
  | none => rfl
  | some k =>
    have := h k rfl
    simp [Scan.valueKey, this, KeyPossible.allowed]

/-- `:` without a key, in a flow collection. -/
theorem bare_flow (hx : opts.extendable = false) (hA : Ascii base) {u : Str} {al : Bool} {key : Option KeySave} {cxt : Context}
    {out : List TokenEntry} (hs : On base (b! ':' :: u)) (hk : Idle key) (hf : cxt.isBlock = false) :
    Scan.fetchNext opts (st base (b! ':' :: u) al key cxt out) =
      (.ok (), st base u false none cxt (out ++ [⟨.Token .Value, (place base u).read⟩])) := by
  rw [fetchNext_run hx (by simp), dispatch_value (by simp [hf])]
  simp only [Scan.run, Scan.fetchValue]
  rw [bind_run takeKey_run, valueKey_idle hk]
  have hv : Scan.valueBare (st base (b! ':' :: u) al none cxt out) = (.ok (), st base (b! ':' :: u) false none cxt out) := by
    unfold Scan.valueBare
    rw [bind_run (m := Scan.get) (a := st base (b! ':' :: u) al none cxt out) (s1 := st base (b! ':' :: u) al none cxt out) rfl]
    have hc : Scan.valueCheck (st base (b! ':' :: u) al none cxt out) = (.ok (), st base (b! ':' :: u) al none cxt out) := by
      unfold Scan.valueCheck
      rw [bind_run (m := Scan.get) (a := st base (b! ':' :: u) al none cxt out) (s1 := st base (b! ':' :: u) al none cxt out) rfl]
      show (if cxt.isBlock = true then _ else pure () : Scan Unit) _ = _
      rw [if_neg (by simp [hf])]
      rfl
    rw [bind_run hc]
    rw [show (st base (b! ':' :: u) al none cxt out).sc.context.isBlock = false from hf]
    rfl
  rw [bind_run hv]
  rw [bind_run (advance_st hA hs (not_break (by decide))).2.2.2]
  exact push_st _

/-! ## Combining -/

theorem Soft.mono {m m' : MStats} {key : Option KeySave} (h : Soft m key) (hm : m.lines ≤ m'.lines) : Soft m' key := by
  intro k hk
  obtain ⟨h1, h2⟩ := h k hk
  exact ⟨h1, by omega⟩

theorem At.lead {X Y : SS} {u : Str} {al idle : Bool} {cxt : Context} {out : List TokenEntry} (h : Leads opts X Y) (h' : At opts base Y u al idle cxt out) :
    At opts base X u al idle cxt out := by
  refine ⟨h'.on, fun n t hs => ?_⟩
  obtain ⟨key, h1, h2, h3⟩ := h'.next n t hs
  exact ⟨key, h1, h2, h.trans h3⟩

theorem At.weak {X : SS} {u : Str} {al idle : Bool} {cxt : Context} {out : List TokenEntry} (h : At opts base X u al idle cxt out) :
    At opts base X u al false cxt out := by
  refine ⟨h.on, fun n t hs => ?_⟩
  obtain ⟨key, h1, h2, h3⟩ := h.next n t hs
  refine ⟨key, h1, fun h => h2 ?_, h3⟩
  rcases h with h | h
  · cases h
  · exact .inr h

/-- Possible properties in front of something. -/
theorem OptProps.lead (hx : opts.extendable = false) (hl : opts.lazy = false) (hA : Ascii base) {p : Spot} {s t : Str} {a : Option Str}
    {tg : Option (Str × Str)} (h : OptProps base p s a tg t) {cxt : Context} (hp : FitsSpot p cxt) {al : Bool} {key : Option KeySave}
    {out : List TokenEntry} (hs : On base s) (ho : p.Ok base s) (hk : Soft (place base s) key) :
    Passes base s t ∧ p.Ok base t ∧ ∃ al' key' P ps, Soft (place base t) key' ∧ Leads opts (st base s al key cxt out) (st base t al' key' cxt (out ++ P)) ∧
      Emit ((place base s).read + 1) ((place base t).read + 1) P ps ∧ TProps ps a tg := by
  cases h with
  | none => exact ⟨.refl _, ho, al, key, [], [], hk, by simpa using Leads.refl _, .nil (Nat.le_refl _), .none⟩
  | some h hn =>
    obtain ⟨ps, hc, ht, -⟩ := NodeProps.chain h
    have hok := hp.ok s ho
    obtain ⟨h1, P, h2, h3⟩ := hc.soft (idle := false) (al := al) (key := key) (out := out) hx hl hA hp hs (calm_of hp.sound hok) (fun _ => due_of_ok hok) hk (by simp)
    obtain ⟨⟨n, hg⟩, ho'⟩ := hn
    obtain ⟨key', g1, g2, g3⟩ := h2.next n t hg
    have hg' := (gap_passes hA h2.on hg).1
    exact ⟨h1.trans hg', ho', _, key', P, ps, g1, g3, h3.mono (Nat.le_refl _) (by have := hg'.read_le; omega), ht⟩

/-! ## Collections -/

/-- A flow collection is read. -/
def GColl (opts : SFlags) (base : Str) (tags : List (Str × Str)) (p : Spot) (kind : NodeKind) (s : Str) (es : List EventData) (r : Str) : Prop :=
  ∀ cxt al key out, FitsSpot p cxt → On base s → p.Ok base s → Soft (place base s) key →
    Passes base s r ∧ ∃ P T, At opts base (st base s al key cxt out) r false true cxt (out ++ P) ∧ Emit ((place base s).read + 1) (place base r).read P T ∧
      ∀ b, TNode tags b kind T es

/-- A node is read. -/
def GNode (opts : SFlags) (base : Str) (tags : List (Str × Str)) (p : Spot) (kind : NodeKind) (s : Str) (es : List EventData) (r : Str) : Prop :=
  ∀ cxt al key out, FitsSpot p cxt → On base s → p.Ok base s → Soft (place base s) key →
    Passes base s r ∧ ∃ P T, At opts base (st base s al key cxt out) r false false cxt (out ++ P) ∧ Emit ((place base s).read + 1) (place base r).read P T ∧
      ∀ b, TNode tags b kind T es

/-- The rest of a flow sequence is read. -/
def GSeq (opts : SFlags) (base : Str) (tags : List (Str × Str)) (p : Spot) (first : Bool) (s : Str) (es : List EventData) (r : Str) : Prop :=
  ∀ cxt f al key out, FitsSpot p cxt → cxt.flow = f + 1 → On base s → p.Ok base s → Soft (place base s) key → (first = true → al = true) →
    Passes base s r ∧ ∃ P T, At opts base (st base s al key cxt out) r false true { cxt with flow := f } (out ++ P) ∧
      Emit (place base s).read (place base r).read P T ∧ TFlowSeq tags first T es

/-- The rest of a flow mapping is read. -/
def GMap (opts : SFlags) (base : Str) (tags : List (Str × Str)) (p : Spot) (first : Bool) (s : Str) (es : List EventData) (r : Str) : Prop :=
  ∀ cxt f al key out, FitsSpot p cxt → cxt.flow = f + 1 → On base s → p.Ok base s → Soft (place base s) key → (first = true → al = true) →
    Passes base s r ∧ ∃ P T, At opts base (st base s al key cxt out) r false true { cxt with flow := f } (out ++ P) ∧
      Emit (place base s).read (place base r).read P T ∧ TFlowMap tags first T es

/-- An entry of a flow sequence is read. -/
def GEntry (opts : SFlags) (base : Str) (tags : List (Str × Str)) (p : Spot) (s : Str) (es : List EventData) (r : Str) : Prop :=
  ∀ cxt key out, FitsSpot p cxt → cxt.isBlock = false → On base s → p.Ok base s → Soft (place base s) key →
    Passes base s r ∧ ∃ P T, At opts base (st base s true key cxt out) r false false cxt (out ++ P) ∧
      Emit (place base s).read (place base r).read P T ∧ TFlowEntry tags T es

/-- A pair of a flow mapping is read. -/
def GPair (opts : SFlags) (base : Str) (tags : List (Str × Str)) (p : Spot) (s : Str) (es : List EventData) (r : Str) : Prop :=
  ∀ cxt key out, FitsSpot p cxt → cxt.isBlock = false → On base s → p.Ok base s → Soft (place base s) key →
    Passes base s r ∧ ∃ P T, At opts base (st base s true key cxt out) r false false cxt (out ++ P) ∧
      Emit (place base s).read (place base r).read P T ∧ TFlowPair tags T es

/-- A key and its value are read. -/
def GKeyed (opts : SFlags) (base : Str) (tags : List (Str × Str)) (p : Spot) (s : Str) (es : List EventData) (r : Str) : Prop :=
  ∀ cxt key out, FitsSpot p cxt → cxt.isBlock = false → On base s → p.Ok base s → Soft (place base s) key →
    Passes base s r ∧ ∃ P u u' v v', At opts base (st base s true key cxt out) r false false cxt (out ++ P) ∧
      Emit (place base s).read (place base r).read P (.Token .Key :: (u ++ u')) ∧ es = v ++ v' ∧ TPart tags false .Key u v ∧ TValue tags false u' v'

/-- What follows an indicator is read. -/
def GPart (opts : SFlags) (base : Str) (tags : List (Str × Str)) (p : Spot) (kind : NodeKind) (u : Str) (es : List EventData) (r : Str) : Prop :=
  ∀ cxt X out, FitsSpot p cxt → At opts base X u false true cxt out →
    Passes base u r ∧ ∃ P T, At opts base X r false false cxt (out ++ P) ∧ Emit (place base u).read (place base r).read P T ∧ TPart tags false kind T es

/-- What follows a `?` is read. -/
def GKey (opts : SFlags) (base : Str) (tags : List (Str × Str)) (p : Spot) (line : Nat) (u : Str) (es : List EventData) (r : Str) : Prop :=
  ∀ cxt X out, FitsSpot p cxt → cxt.isBlock = false → lineOf base u = line → (∀ l, p.line = some l → line = l) → At opts base X u false true cxt out →
    Passes base u r ∧ ∃ P T, At opts base X r false true cxt (out ++ P) ∧ Emit (place base u).read (place base r).read P T ∧ TPart tags false .Key T es

theorem FitsSpot.flow {p : Spot} {cxt : Context} (h : FitsSpot p cxt) : FitsSpot p.flow cxt.flowIncrement := by
  refine ⟨by simp [Spot.flow, Context.flowIncrement, Context.isBlock], h.level, h.line, h.sound⟩

theorem unflow {cxt : Context} : { cxt.flowIncrement with flow := cxt.flow } = cxt := rfl

/-- An indicator, and what is pushed for it. -/
theorem at_sign (hx : opts.extendable = false) (hA : Ascii base) {b : Byte} {u : Str} {al al1 idle : Bool} {key key1 : Option KeySave}
    {cxt cxt1 : Context} {out out1 : List TokenEntry} (hs : On base (b :: u)) (hb : NoBrk b) (hc : Calm base cxt (b :: u))
    (hf : Scan.fetchNext opts (st base (b :: u) al key cxt out) = (.ok (), st base u al1 key1 cxt1 out1))
    (hk : Soft (place base u) key1) (hi : idle = true → Idle key1) :
    Passes base (b :: u) u ∧ lineOf base u = lineOf base (b :: u) ∧ (place base u).read = (place base (b :: u)).read + 1 ∧
      At opts base (st base (b :: u) al key cxt out) u al1 idle cxt1 out1 := by
  obtain ⟨h1, h2, h3, -⟩ := advance_st (al := false) (key := none) (cxt := {}) (out := []) hA hs (not_break (u := u) hb)
  exact ⟨h1, h2, h3, at_token hx hA hc hf (hs.pass h1) hk hi⟩

variable {tags : List (Str × Str)}

/-- A bracket opens. -/
theorem open_at (hx : opts.extendable = false) (hl : opts.lazy = false) (hA : Ascii base) (map : Bool) {p : Spot} {s u : Str} {a : Option Str}
    {tg : Option (Str × Str)} (hp : OptProps base p s a tg ((if map then b! '{' else b! '[') :: u)) {cxt : Context} (hf : FitsSpot p cxt) {al : Bool}
    {key : Option KeySave} {out : List TokenEntry} (hs : On base s) (ho : p.Ok base s) (hk : Soft (place base s) key) :
    Passes base s u ∧ ∃ P ps, At opts base (st base s al key cxt out) u true false cxt.flowIncrement (out ++ P) ∧
      Emit ((place base s).read + 1) (place base u).read P (ps ++ [.Token (if map then .FlowMappingStart else .FlowSequenceStart)]) ∧ TProps ps a tg := by
  obtain ⟨h1, h2, al', key', P, ps, h3, h4, h5, h6⟩ := OptProps.lead (al := al) (out := out) hx hl hA hp hf hs ho hk
  have hon := hs.pass h1
  have hfe := open_fetch (opts := opts) (al := al') (key := key') (cxt := cxt) (out := out ++ P) hx hA map hon (fun _ => h3.loose)
  obtain ⟨g1, g2, g3, g4⟩ := at_sign (idle := false) hx hA hon (by cases map <;> decide) (calm_of hf.sound (hf.ok _ h2)) hfe
    (savedKey_soft (.refl u) (h3.mono (by
      have := (advance_st (al := false) (key := none) (cxt := {}) (out := []) hA hon (by cases map <;> exact not_break (by decide))).2.1
      unfold lineOf at this
      omega)) (fun _ => by simp [due, Context.isBlock, Context.flowIncrement])) (by simp)
  refine ⟨h1.trans g1, P ++ [⟨.Token (if map then .FlowMappingStart else .FlowSequenceStart), (place base u).read⟩], ps, ?_, ?_, h6⟩
  · rw [← List.append_assoc]
    exact g4.lead h4
  · exact h5.append (.one _ (Nat.le_refl _) (Nat.le_refl _)) (by omega)

theorem coll_seq (hx : opts.extendable = false) (hl : opts.lazy = false) (hA : Ascii base) {p : Spot} {kind : NodeKind} {s u t r : Str} {a : Option Str}
    {tg : Option (Str × Str)} {es : List EventData} (hp : OptProps base p s a tg (b! '[' :: u)) (hu : Usable tags tg) (hn : NextAt base p.flow u t)
    (h : GSeq opts base tags p.flow true t es r) : GColl opts base tags p kind s (.SequenceStart { anchor := a, tag := tg, kind } :: es) r := by
  intro cxt al key out hf hs ho hk
  obtain ⟨h1, P, ps, h2, h3, h4⟩ := open_at (al := al) (out := out) hx hl hA false hp hf hs ho hk
  obtain ⟨⟨n, hg⟩, ho'⟩ := hn
  obtain ⟨key', g1, g2, g3⟩ := h2.next n t hg
  have hg' := (gap_passes hA h2.on hg).1
  obtain ⟨k1, P', T', k2, k3, k4⟩ := h cxt.flowIncrement cxt.flow (true || decide (n ≠ 0)) key' _ hf.flow rfl (h2.on.pass hg') ho' g1 (fun _ => rfl)
  refine ⟨(h1.trans hg').trans k1, P ++ P', _, ?_, h3.append k3 hg'.read_le, fun b => ?_⟩
  · rw [← List.append_assoc]
    exact k2.lead g3
  · simpa using TNode.flowSeq b kind h4 hu k4

theorem coll_map (hx : opts.extendable = false) (hl : opts.lazy = false) (hA : Ascii base) {p : Spot} {kind : NodeKind} {s u t r : Str} {a : Option Str}
    {tg : Option (Str × Str)} {es : List EventData} (hp : OptProps base p s a tg (b! '{' :: u)) (hu : Usable tags tg) (hn : NextAt base p.flow u t)
    (h : GMap opts base tags p.flow true t es r) : GColl opts base tags p kind s (.MappingStart { anchor := a, tag := tg, kind } :: es) r := by
  intro cxt al key out hf hs ho hk
  obtain ⟨h1, P, ps, h2, h3, h4⟩ := open_at (al := al) (out := out) hx hl hA true hp hf hs ho hk
  obtain ⟨⟨n, hg⟩, ho'⟩ := hn
  obtain ⟨key', g1, g2, g3⟩ := h2.next n t hg
  have hg' := (gap_passes hA h2.on hg).1
  obtain ⟨k1, P', T', k2, k3, k4⟩ := h cxt.flowIncrement cxt.flow (true || decide (n ≠ 0)) key' _ hf.flow rfl (h2.on.pass hg') ho' g1 (fun _ => rfl)
  refine ⟨(h1.trans hg').trans k1, P ++ P', _, ?_, h3.append k3 hg'.read_le, fun b => ?_⟩
  · rw [← List.append_assoc]
    exact k2.lead g3
  · simpa using TNode.flowMap b kind h4 hu k4

theorem leaf_node (hx : opts.extendable = false) (hl : opts.lazy = false) (hA : Ascii base) {p : Spot} {kind : NodeKind} {s r : Str}
    {es : List EventData} (h : Leaf base tags p kind s es r) : GNode opts base tags p kind s es r := by
  intro cxt al key out hf hs ho hk
  obtain ⟨ts, h1, h2⟩ := Leaf.chain h
  have hok := hf.ok s ho
  obtain ⟨g1, P, g2, g3⟩ := h1.soft (idle := false) (al := al) (key := key) (out := out) hx hl hA hf hs (calm_of hf.sound hok) (fun _ => due_of_ok hok) hk (by simp)
  exact ⟨g1, P, ts, g2, g3, h2⟩

theorem GColl.node {p : Spot} {kind : NodeKind} {s r : Str} {es : List EventData} (h : GColl opts base tags p kind s es r) :
    GNode opts base tags p kind s es r := by
  intro cxt al key out hf hs ho hk
  obtain ⟨h1, P, T, h2, h3, h4⟩ := h cxt al key out hf hs ho hk
  exact ⟨h1, P, T, h2.weak, h3, h4⟩

/-- The end of a flow collection. -/
theorem close_at (hx : opts.extendable = false) (hA : Ascii base) (map : Bool) {p : Spot} {r : Str} {cxt : Context} {f : Nat} {al : Bool} {key : Option KeySave}
    {out : List TokenEntry} (hf : FitsSpot p cxt) (hfl : cxt.flow = f + 1) (hs : On base ((if map then b! '}' else b! ']') :: r))
    (ho : p.Ok base ((if map then b! '}' else b! ']') :: r)) (hk : Soft (place base ((if map then b! '}' else b! ']') :: r)) key) :
    Passes base ((if map then b! '}' else b! ']') :: r) r ∧
      At opts base (st base ((if map then b! '}' else b! ']') :: r) al key cxt out) r false true { cxt with flow := f }
        (out ++ [⟨.Token (if map then .FlowMappingEnd else .FlowSequenceEnd), (place base r).read⟩]) ∧
      Emit (place base ((if map then b! '}' else b! ']') :: r)).read (place base r).read
        [⟨.Token (if map then .FlowMappingEnd else .FlowSequenceEnd), (place base r).read⟩] [.Token (if map then .FlowMappingEnd else .FlowSequenceEnd)] := by
  have hfe := close_fetch (opts := opts) (al := al) (key := key) (cxt := cxt) (out := out) hx hA map hs hk.loose hfl
  obtain ⟨g1, g2, g3, g4⟩ := at_sign (idle := true) hx hA hs (by cases map <;> decide) (calm_of hf.sound (hf.ok _ ho)) hfe (.none _) (fun _ => .none)
  exact ⟨g1, g4, .one _ g1.read_le (Nat.le_refl _)⟩

/-- A `,`. -/
theorem comma_at (hx : opts.extendable = false) (hA : Ascii base) {p : Spot} {r : Str} {cxt : Context} {al : Bool} {key : Option KeySave}
    {out : List TokenEntry} (hf : FitsSpot p cxt) (hs : On base (b! ',' :: r)) (ho : p.Ok base (b! ',' :: r)) (hk : Soft (place base (b! ',' :: r)) key) :
    Passes base (b! ',' :: r) r ∧ At opts base (st base (b! ',' :: r) al key cxt out) r true true cxt (out ++ [⟨.Token .FlowEntry, (place base r).read⟩]) ∧
      Emit (place base (b! ',' :: r)).read (place base r).read [⟨.Token .FlowEntry, (place base r).read⟩] [.Token .FlowEntry] := by
  have hfe := comma_fetch (opts := opts) (al := al) (key := key) (cxt := cxt) (out := out) hx hA hs hk.loose
  obtain ⟨g1, g2, g3, g4⟩ := at_sign (idle := true) hx hA hs (by decide) (calm_of hf.sound (hf.ok _ ho)) hfe (.none _) (fun _ => .none)
  exact ⟨g1, g4, .one _ g1.read_le (Nat.le_refl _)⟩

theorem seq_close (hx : opts.extendable = false) (hA : Ascii base) {p : Spot} {first : Bool} {r : Str} :
    GSeq opts base tags p first (b! ']' :: r) [.SequenceEnd] r := by
  intro cxt f al key out hf hfl hs ho hk _
  obtain ⟨h1, h2, h3⟩ := close_at (al := al) (out := out) hx hA false hf hfl hs ho hk
  exact ⟨h1, _, _, h2, h3, .close _⟩

theorem map_close (hx : opts.extendable = false) (hA : Ascii base) {p : Spot} {first : Bool} {r : Str} :
    GMap opts base tags p first (b! '}' :: r) [.MappingEnd] r := by
  intro cxt f al key out hf hfl hs ho hk _
  obtain ⟨h1, h2, h3⟩ := close_at (al := al) (out := out) hx hA true hf hfl hs ho hk
  exact ⟨h1, _, _, h2, h3, .close _⟩

theorem seq_trailing (hx : opts.extendable = false) (hA : Ascii base) {p : Spot} {u r : Str} (hn : NextAt base p u (b! ']' :: r)) :
    GSeq opts base tags p false (b! ',' :: u) [.SequenceEnd] r := by
  intro cxt f al key out hf hfl hs ho hk _
  obtain ⟨h1, h2, h3⟩ := comma_at (al := al) (out := out) hx hA hf hs ho hk
  obtain ⟨⟨n, hg⟩, ho'⟩ := hn
  obtain ⟨key', g1, g2, g3⟩ := h2.next n _ hg
  have hg' := (gap_passes hA h2.on hg).1
  obtain ⟨k1, k2, k3⟩ := close_at (opts := opts) (al := true || decide (n ≠ 0)) (out := out ++ _) hx hA false hf hfl (h2.on.pass hg') ho' g1
  refine ⟨(h1.trans hg').trans k1, _, _, ?_, h3.append k3 hg'.read_le, .trailing⟩
  rw [← List.append_assoc]
  exact k2.lead g3

theorem map_trailing (hx : opts.extendable = false) (hA : Ascii base) {p : Spot} {u r : Str} (hn : NextAt base p u (b! '}' :: r)) :
    GMap opts base tags p false (b! ',' :: u) [.MappingEnd] r := by
  intro cxt f al key out hf hfl hs ho hk _
  obtain ⟨h1, h2, h3⟩ := comma_at (al := al) (out := out) hx hA hf hs ho hk
  obtain ⟨⟨n, hg⟩, ho'⟩ := hn
  obtain ⟨key', g1, g2, g3⟩ := h2.next n _ hg
  have hg' := (gap_passes hA h2.on hg).1
  obtain ⟨k1, k2, k3⟩ := close_at (opts := opts) (al := true || decide (n ≠ 0)) (out := out ++ _) hx hA true hf hfl (h2.on.pass hg') ho' g1
  refine ⟨(h1.trans hg').trans k1, _, _, ?_, h3.append k3 hg'.read_le, .trailing⟩
  rw [← List.append_assoc]
  exact k2.lead g3

theorem flow_of {cxt : Context} {f : Nat} (h : cxt.flow = f + 1) : cxt.isBlock = false := by simp [Context.isBlock, h]

theorem seq_rest (hA : Ascii base) {p : Spot} {s u t r : Str} {v es : List EventData}
    (h : GEntry opts base tags p s v u) (hn : NextAt base p u t) (ht : GSeq opts base tags p false t es r) {cxt : Context} {f : Nat}
    {key : Option KeySave} {out : List TokenEntry} (hf : FitsSpot p cxt) (hfl : cxt.flow = f + 1) (hs : On base s) (ho : p.Ok base s)
    (hk : Soft (place base s) key) :
    Passes base s r ∧ ∃ P T T', At opts base (st base s true key cxt out) r false true { cxt with flow := f } (out ++ P) ∧
      Emit (place base s).read (place base r).read P (T ++ T') ∧ TFlowEntry tags T v ∧ TFlowSeq tags false T' es := by
  obtain ⟨h1, P, T, h2, h3, h4⟩ := h cxt key out hf (flow_of hfl) hs ho hk
  obtain ⟨⟨n, hg⟩, ho'⟩ := hn
  obtain ⟨key', g1, g2, g3⟩ := h2.next n _ hg
  have hg' := (gap_passes hA h2.on hg).1
  obtain ⟨k1, P', T', k2, k3, k4⟩ := ht cxt f _ key' _ hf hfl (h2.on.pass hg') ho' g1 (by simp)
  refine ⟨(h1.trans hg').trans k1, _, _, _, ?_, h3.append k3 hg'.read_le, h4, k4⟩
  rw [← List.append_assoc]
  exact k2.lead g3

theorem seq_first (hA : Ascii base) {p : Spot} {s u t r : Str} {v es : List EventData}
    (h : GEntry opts base tags p s v u) (hn : NextAt base p u t) (ht : GSeq opts base tags p false t es r) : GSeq opts base tags p true s (v ++ es) r := by
  intro cxt f al key out hf hfl hs ho hk hal
  rw [hal rfl]
  obtain ⟨h1, P, T, T', h2, h3, h4, h5⟩ := seq_rest (out := out) hA h hn ht hf hfl hs ho hk
  exact ⟨h1, P, _, h2, h3, .first h4 h5⟩

theorem seq_next (hx : opts.extendable = false) (hA : Ascii base) {p : Spot} {s s' u t r : Str} {v es : List EventData} (hss : NextAt base p s s')
    (h : GEntry opts base tags p s' v u) (hn : NextAt base p u t) (ht : GSeq opts base tags p false t es r) :
    GSeq opts base tags p false (b! ',' :: s) (v ++ es) r := by
  intro cxt f al key out hf hfl hs ho hk _
  obtain ⟨h1, h2, h3⟩ := comma_at (al := al) (out := out) hx hA hf hs ho hk
  obtain ⟨⟨n, hg⟩, ho'⟩ := hss
  obtain ⟨key', g1, g2, g3⟩ := h2.next n _ hg
  have hg' := (gap_passes hA h2.on hg).1
  obtain ⟨k1, P, T, T', k2, k3, k4, k5⟩ := seq_rest (out := out ++ _) hA h hn ht hf hfl (h2.on.pass hg') ho' g1
  refine ⟨(h1.trans hg').trans k1, _, .Token .FlowEntry :: (T ++ T'), ?_, h3.append k3 hg'.read_le, .next k4 k5⟩
  rw [← List.append_assoc]
  exact k2.lead g3

theorem map_rest (hA : Ascii base) {p : Spot} {s u t r : Str} {v es : List EventData}
    (h : GPair opts base tags p s v u) (hn : NextAt base p u t) (ht : GMap opts base tags p false t es r) {cxt : Context} {f : Nat}
    {key : Option KeySave} {out : List TokenEntry} (hf : FitsSpot p cxt) (hfl : cxt.flow = f + 1) (hs : On base s) (ho : p.Ok base s)
    (hk : Soft (place base s) key) :
    Passes base s r ∧ ∃ P T T', At opts base (st base s true key cxt out) r false true { cxt with flow := f } (out ++ P) ∧
      Emit (place base s).read (place base r).read P (T ++ T') ∧ TFlowPair tags T v ∧ TFlowMap tags false T' es := by
  obtain ⟨h1, P, T, h2, h3, h4⟩ := h cxt key out hf (flow_of hfl) hs ho hk
  obtain ⟨⟨n, hg⟩, ho'⟩ := hn
  obtain ⟨key', g1, g2, g3⟩ := h2.next n _ hg
  have hg' := (gap_passes hA h2.on hg).1
  obtain ⟨k1, P', T', k2, k3, k4⟩ := ht cxt f _ key' _ hf hfl (h2.on.pass hg') ho' g1 (by simp)
  refine ⟨(h1.trans hg').trans k1, _, _, _, ?_, h3.append k3 hg'.read_le, h4, k4⟩
  rw [← List.append_assoc]
  exact k2.lead g3

theorem map_first (hA : Ascii base) {p : Spot} {s u t r : Str} {v es : List EventData}
    (h : GPair opts base tags p s v u) (hn : NextAt base p u t) (ht : GMap opts base tags p false t es r) : GMap opts base tags p true s (v ++ es) r := by
  intro cxt f al key out hf hfl hs ho hk hal
  rw [hal rfl]
  obtain ⟨h1, P, T, T', h2, h3, h4, h5⟩ := map_rest (out := out) hA h hn ht hf hfl hs ho hk
  exact ⟨h1, P, _, h2, h3, .first h4 h5⟩

theorem map_next (hx : opts.extendable = false) (hA : Ascii base) {p : Spot} {s s' u t r : Str} {v es : List EventData} (hss : NextAt base p s s')
    (h : GPair opts base tags p s' v u) (hn : NextAt base p u t) (ht : GMap opts base tags p false t es r) :
    GMap opts base tags p false (b! ',' :: s) (v ++ es) r := by
  intro cxt f al key out hf hfl hs ho hk _
  obtain ⟨h1, h2, h3⟩ := comma_at (al := al) (out := out) hx hA hf hs ho hk
  obtain ⟨⟨n, hg⟩, ho'⟩ := hss
  obtain ⟨key', g1, g2, g3⟩ := h2.next n _ hg
  have hg' := (gap_passes hA h2.on hg).1
  obtain ⟨k1, P, T, T', k2, k3, k4, k5⟩ := map_rest (out := out ++ _) hA h hn ht hf hfl (h2.on.pass hg') ho' g1
  refine ⟨(h1.trans hg').trans k1, _, .Token .FlowEntry :: (T ++ T'), ?_, h3.append k3 hg'.read_le, .next k4 k5⟩
  rw [← List.append_assoc]
  exact k2.lead g3

theorem entry_node {p : Spot} {s r : Str} {v : List EventData} (h : GNode opts base tags p .Entry s v r) : GEntry opts base tags p s v r := by
  intro cxt key out hf hfl hs ho hk
  obtain ⟨h1, P, T, h2, h3, h4⟩ := h cxt true key out hf hs ho hk
  exact ⟨h1, P, T, h2, h3.mono (by omega) (Nat.le_refl _), .node (h4 false)⟩

theorem pair_node {p : Spot} {s r : Str} {v : List EventData} (h : GNode opts base tags p .Key s v r) : GPair opts base tags p s (v ++ [leftOut .Value]) r := by
  intro cxt key out hf hfl hs ho hk
  obtain ⟨h1, P, T, h2, h3, h4⟩ := h cxt true key out hf hs ho hk
  exact ⟨h1, P, T, h2, h3.mono (by omega) (Nat.le_refl _), .node (h4 false)⟩

theorem entry_pair {p : Spot} {s r : Str} {v : List EventData} (h : GKeyed opts base tags p s v r) :
    GEntry opts base tags p s (.MappingStart { anchor := none, tag := none, kind := .Entry } :: (v ++ [.MappingEnd])) r := by
  intro cxt key out hf hfl hs ho hk
  obtain ⟨h1, P, u, u', v, v', h2, h3, rfl, h4, h5⟩ := h cxt key out hf hfl hs ho hk
  exact ⟨h1, P, _, h2, h3, .pair h4 h5⟩

theorem pair_pair {p : Spot} {s r : Str} {v : List EventData} (h : GKeyed opts base tags p s v r) : GPair opts base tags p s v r := by
  intro cxt key out hf hfl hs ho hk
  obtain ⟨h1, P, u, u', v, v', h2, h3, rfl, h4, h5⟩ := h cxt key out hf hfl hs ho hk
  exact ⟨h1, P, _, h2, h3, .pair h4 h5⟩

theorem part_leftOut {p : Spot} {kind : NodeKind} {u : Str} : GPart opts base tags p kind u [leftOut kind] u := by
  intro cxt X out hf h
  exact ⟨.refl _, [], [], by simpa using h.weak, .nil (Nat.le_refl _), .leftOut _ _⟩

theorem part_node (hA : Ascii base) {p : Spot} {kind : NodeKind} {u t r : Str} {v : List EventData} (hn : NextAt base p u t)
    (h : GNode opts base tags p kind t v r) : GPart opts base tags p kind u v r := by
  intro cxt X out hf ha
  obtain ⟨⟨n, hg⟩, ho'⟩ := hn
  obtain ⟨key', g1, g2, g3⟩ := ha.next n _ hg
  have hg' := (gap_passes hA ha.on hg).1
  obtain ⟨k1, P, T, k2, k3, k4⟩ := h cxt _ key' out hf (ha.on.pass hg') ho' g1
  exact ⟨hg'.trans k1, P, T, k2.lead g3, k3.mono (by have := hg'.read_le; omega) (Nat.le_refl _), .node (k4 _)⟩

theorem key_leftOut {p : Spot} {line : Nat} {u : Str} : GKey opts base tags p line u [leftOut .Key] u := by
  intro cxt X out hf _ _ _ h
  exact ⟨.refl _, [], [], by simpa using h, .nil (Nat.le_refl _), .leftOut _ _⟩

theorem key_coll (hA : Ascii base) {p : Spot} {line : Nat} {u t r : Str} {v : List EventData} (hn : NextAt base p u t)
    (h : GColl opts base tags p .Key t v r) : GKey opts base tags p line u v r := by
  intro cxt X out hf _ _ _ ha
  obtain ⟨⟨n, hg⟩, ho'⟩ := hn
  obtain ⟨key', g1, g2, g3⟩ := ha.next n _ hg
  have hg' := (gap_passes hA ha.on hg).1
  obtain ⟨k1, P, T, k2, k3, k4⟩ := h cxt _ key' out hf (ha.on.pass hg') ho' g1
  exact ⟨hg'.trans k1, P, T, k2.lead g3, k3.mono (by have := hg'.read_le; omega) (Nat.le_refl _), .node (k4 _)⟩

theorem key_leaf (hx : opts.extendable = false) (hl : opts.lazy = false) (hA : Ascii base) {p : Spot} {line : Nat} {u t r : Str} {v : List EventData}
    (hn : NextAt base { p with line := some line } u t) (h : Leaf base tags { p with line := some line } .Key t v r) :
    GKey opts base tags p line u v r := by
  intro cxt X out hf hfl hln hpl ha
  obtain ⟨⟨n, hg⟩, ho'⟩ := hn
  obtain ⟨key', g1, g2, g3⟩ := ha.next n _ hg
  obtain ⟨hg', hgl⟩ := gap_passes hA ha.on hg
  have hlt : lineOf base t = line := ho'.2 _ rfl
  have hn0 : n = 0 := by omega
  have hf' : FitsSpot { p with line := some line } cxt := ⟨hf.block, hf.level, fun l hl => by rw [hpl l (hf.line l hl)], hf.sound⟩
  obtain ⟨ts, h1, h2⟩ := Leaf.chain h
  have hok := hf'.ok t ho'
  obtain ⟨k1, P, k2, k3⟩ := h1.soft (idle := true) (al := false || decide (n ≠ 0)) (key := key') (out := out) hx hl hA hf' (ha.on.pass hg')
    (calm_of hf.sound hok) (fun _ => due_of_ok hok) g1 (fun _ => ⟨by simp [hn0], g2 (.inl rfl), by simp [hlt]⟩)
  exact ⟨hg'.trans k1, P, ts, k2.lead g3, k3.mono (by have := hg'.read_le; omega) (Nat.le_refl _), .node (h2 _)⟩

theorem keyed_implicit (hx : opts.extendable = false) (hl : opts.lazy = false) (hA : Ascii base) {p : Spot} {s r u r' : Str} {v v' : List EventData}
    (hk : Leaf base tags p .Key s v r) (hn : NextAt base p r (b! ':' :: u)) (hkf : KeyFits base s (b! ':' :: u))
    (hv : GPart opts base tags p .Value u v' r') : GKeyed opts base tags p s (v ++ v') r' := by
  intro cxt key out hf hfl hs ho hks
  obtain ⟨ts, h1, h2⟩ := Leaf.chain hk
  obtain ⟨⟨n, hg⟩, ho'⟩ := hn
  obtain ⟨g1, P, g2, g3⟩ := h1.key (out := out) hx hl hA hf hg hkf hs (calm_of hf.sound (hf.ok s ho)) hks.loose
  have hon := hs.pass g1
  have hfe := value_flow (opts := opts) (al := false) (d := due base cxt s) (out := out ++ P) hx hA (s := s) hon hfl
  obtain ⟨k1, -, k3, k4⟩ := at_sign (idle := true) hx hA hon (by decide) (calm_of hf.sound (hf.ok _ ho')) hfe (.none _) (fun _ => .none)
  obtain ⟨m1, P', T', m2, m3, m4⟩ := hv cxt _ _ hf (k4.lead g2)
  refine ⟨(g1.trans k1).trans m1, P ++ [⟨.Token .Key, (place base s).read⟩] ++ [⟨.Token .Value, (place base u).read⟩] ++ P', ts, .Token .Value :: T', _, _, ?_, ?_, rfl, .node (h2 _), .value m4⟩
  · simpa using m2
  · have e := (g3.insert (.Token .Key) (Nat.lt_succ_self _)).append (Emit.one (n := (place base u).read) (.Token .Value) (Nat.le_refl _) (Nat.le_refl _)) (by omega)
    simpa using e.append m3 (Nat.le_refl _)

/-- A `?`. -/
theorem query_at (hx : opts.extendable = false) (hA : Ascii base) {p : Spot} {r : Str} {cxt : Context} {al : Bool} {key : Option KeySave}
    {out : List TokenEntry} (hf : FitsSpot p cxt) (hfl : cxt.isBlock = false) (hs : On base (b! '?' :: r)) (ho : p.Ok base (b! '?' :: r))
    (hk : Soft (place base (b! '?' :: r)) key) :
    Passes base (b! '?' :: r) r ∧ lineOf base r = lineOf base (b! '?' :: r) ∧
      At opts base (st base (b! '?' :: r) al key cxt out) r false true cxt (out ++ [⟨.Token .Key, (place base r).read⟩]) ∧
      Emit (place base (b! '?' :: r)).read (place base r).read [⟨.Token .Key, (place base r).read⟩] [.Token .Key] := by
  have hfe := query_flow (opts := opts) (al := al) (key := key) (cxt := cxt) (out := out) hx hA hs hk.loose hfl
  obtain ⟨g1, g2, g3, g4⟩ := at_sign (idle := true) hx hA hs (by decide) (calm_of hf.sound (hf.ok _ ho)) hfe (.none _) (fun _ => .none)
  exact ⟨g1, g2, g4, .one _ g1.read_le (Nat.le_refl _)⟩

theorem keyed_explicit (hx : opts.extendable = false) (hA : Ascii base) {p : Spot} {s r u r' : Str} {v v' : List EventData}
    (hk : GKey opts base tags p (lineOf base (b! '?' :: s)) s v r) (hn : NextAt base p r (b! ':' :: u)) (hv : GPart opts base tags p .Value u v' r') :
    GKeyed opts base tags p (b! '?' :: s) (v ++ v') r' := by
  intro cxt key out hf hfl hs ho hks
  obtain ⟨h1, h2, h3, h4⟩ := query_at (al := true) (out := out) hx hA hf hfl hs ho hks
  obtain ⟨g1, P, T, g2, g3, g4⟩ := hk cxt _ _ hf hfl h2 (fun l hl => ho.2 l hl) h3
  obtain ⟨⟨n, hg⟩, ho'⟩ := hn
  obtain ⟨key', k1, k2, k3⟩ := g2.next n _ hg
  have hg' := (gap_passes hA g2.on hg).1
  have hon := g2.on.pass hg'
  have hfe := bare_flow (opts := opts) (al := false || decide (n ≠ 0)) (out := out ++ [⟨.Token .Key, (place base s).read⟩] ++ P) hx hA hon (k2 (.inl rfl)) hfl
  obtain ⟨q1, -, q3, q4⟩ := at_sign (idle := true) hx hA hon (by decide) (calm_of hf.sound (hf.ok _ ho')) hfe (.none _) (fun _ => .none)
  obtain ⟨m1, P', T', m2, m3, m4⟩ := hv cxt _ _ hf (q4.lead k3)
  refine ⟨(((h1.trans g1).trans hg').trans q1).trans m1, [⟨.Token .Key, (place base s).read⟩] ++ P ++ [⟨.Token .Value, (place base u).read⟩] ++ P', T, .Token .Value :: T', _, _, ?_, ?_, rfl, g4, .value m4⟩
  · simpa using m2
  · have hle := hg'.read_le
    have e := (h4.append g3 (Nat.le_refl _)).append (Emit.one (n := (place base u).read) (.Token .Value) (Nat.le_refl _) (Nat.le_refl _)) (by omega)
    simpa using e.append m3 (Nat.le_refl _)

theorem keyed_keyOnly (hx : opts.extendable = false) (hA : Ascii base) {p : Spot} {s r : Str} {v : List EventData}
    (hk : GKey opts base tags p (lineOf base (b! '?' :: s)) s v r) : GKeyed opts base tags p (b! '?' :: s) (v ++ [leftOut .Value]) r := by
  intro cxt key out hf hfl hs ho hks
  obtain ⟨h1, h2, h3, h4⟩ := query_at (al := true) (out := out) hx hA hf hfl hs ho hks
  obtain ⟨g1, P, T, g2, g3, g4⟩ := hk cxt _ _ hf hfl h2 (fun l hl => ho.2 l hl) h3
  refine ⟨h1.trans g1, [⟨.Token .Key, (place base s).read⟩] ++ P, T, [], _, _, ?_, ?_, rfl, g4, .leftOut _⟩
  · simpa using g2.weak
  · simpa using h4.append g3 (Nat.le_refl _)

/-- **Flow collections are read.** -/
theorem flow_reads (hx : opts.extendable = false) (hl : opts.lazy = false) (hA : Ascii base) {p : Spot} {kind : NodeKind} {s r : Str}
    {es : List EventData} (h : FlowColl base tags p kind s es r) : GColl opts base tags p kind s es r := by
  refine FlowColl.rec (tags := tags) (base := base)
    (motive_1 := fun p kind s es r _ => GColl opts base tags p kind s es r)
    (motive_2 := fun p kind s es r _ => GNode opts base tags p kind s es r)
    (motive_3 := fun p first s es r _ => GSeq opts base tags p first s es r)
    (motive_4 := fun p s es r _ => GEntry opts base tags p s es r)
    (motive_5 := fun p first s es r _ => GMap opts base tags p first s es r)
    (motive_6 := fun p s es r _ => GPair opts base tags p s es r)
    (motive_7 := fun p s es r _ => GKeyed opts base tags p s es r)
    (motive_8 := fun p kind s es r _ => GPart opts base tags p kind s es r)
    (motive_9 := fun p line s es r _ => GKey opts base tags p line s es r)
    ?_ ?_ ?_ ?_ ?_ ?_ ?_ ?_ ?_ ?_ ?_ ?_ ?_ ?_ ?_ ?_ ?_ ?_ ?_ ?_ ?_ ?_ ?_ ?_ h
  · intro p kind s u t r a tg es hp hu hn _ ih
    exact coll_seq hx hl hA hp hu hn ih
  · intro p kind s u t r a tg es hp hu hn _ ih
    exact coll_map hx hl hA hp hu hn ih
  · intro p kind s r es h
    exact leaf_node hx hl hA h
  · intro p kind s r es _ ih
    exact ih.node
  · intro p first r
    exact seq_close hx hA
  · intro p u r hn
    exact seq_trailing hx hA hn
  · intro p s u t r v es _ hn _ ih ih'
    exact seq_first hA ih hn ih'
  · intro p s s' u t r v es hs _ hn _ ih ih'
    exact seq_next hx hA hs ih hn ih'
  · intro p s r v _ ih
    exact entry_node ih
  · intro p s r v _ ih
    exact entry_pair ih
  · intro p first r
    exact map_close hx hA
  · intro p u r hn
    exact map_trailing hx hA hn
  · intro p s u t r v es _ hn _ ih ih'
    exact map_first hA ih hn ih'
  · intro p s s' u t r v es hs _ hn _ ih ih'
    exact map_next hx hA hs ih hn ih'
  · intro p s r v _ ih
    exact pair_node ih
  · intro p s r v _ ih
    exact pair_pair ih
  · intro p s r u r' v v' hk hn hf _ ih
    exact keyed_implicit hx hl hA hk hn hf ih
  · intro p s r u r' v v' _ hn _ ih ih'
    exact keyed_explicit hx hA ih hn ih'
  · intro p s r v _ ih
    exact keyed_keyOnly hx hA ih
  · intro p kind u
    exact part_leftOut
  · intro p kind u t r v hn _ ih
    exact part_node hA hn ih
  · intro p line u
    exact key_leftOut
  · intro p line u t r v hn h
    exact key_leaf hx hl hA hn h
  · intro p line u t r v hn _ ih
    exact key_coll hA hn ih

/-- A node in a line is read. -/
theorem inline_reads (hx : opts.extendable = false) (hl : opts.lazy = false) (hA : Ascii base) {p : Spot} {kind : NodeKind} {s r : Str}
    {es : List EventData} (h : Inline base tags p kind s es r) : GNode opts base tags p kind s es r := by
  cases h with
  | leaf h => exact leaf_node hx hl hA h
  | coll h => exact (flow_reads hx hl hA h).node

end Yary.Reading
