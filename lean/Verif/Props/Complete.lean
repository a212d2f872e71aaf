import Verif.Proof.CompleteDoc
import Verif.Proof.Fuel
import Verif.Props.Parser

/-! # C38: which token streams are parsed, and into what -/

namespace Yary

open Spec

variable {σ : Type} {drive : Drive σ}

/-! ### C38: the parser accepts the token language and gives it its meaning -/

/-- **C38.** When the tokens a source provides are those of a stream of documents, the parser
hands out exactly the events of that stream and then finishes; it reports no error on the way. -/
theorem C38_parser_complete {src : σ} {toks : List TokenEntry} {vs : List EventData}
    (ha : Ahead drive (PeekReader.new src) toks) (h : TStream (toks.map TokenEntry.wrap) vs) :
    ∃ es s, Yields drive (start src) es s ∧ Finished drive s ∧
      es.map (fun e => e.data) = vs := by
  obtain ⟨s, ⟨es, hy, rfl⟩, hd⟩ := Parser.run_stream h rfl ha
  exact ⟨es, s, hy, ⟨1, s, Parser.nextEvent_of_done hd⟩, rfl⟩

/-- **C38**, for the caller: whatever events were handed out so far are the first ones of the
stream, and the iterator has finished exactly when these are all. In particular no call errs. -/
theorem C38_parser_exact {src : σ} {toks : List TokenEntry} {vs : List EventData}
    (ha : Ahead drive (PeekReader.new src) toks) (h : TStream (toks.map TokenEntry.wrap) vs)
    {es : List Event} {s : PS σ} (hy : Yields drive (start src) es s) :
    (∃ ws, vs = es.map (fun e => e.data) ++ ws ∧
      (∀ w ws', ws = w :: ws' → ∃ fuel e s', e.data = w ∧
        Parser.nextEvent drive fuel s = (.ok (some e), s'))) ∧
    (Finished drive s ↔ es.map (fun e => e.data) = vs) := by
  obtain ⟨fs, s2, hf, hfin, rfl⟩ := C38_parser_complete ha h
  obtain ⟨gs, rfl, hg⟩ := yields_prefix hy hf hfin
  refine ⟨⟨gs.map fun e => e.data, by simp, ?_⟩, fun hs => ?_, fun hs => ?_⟩
  · intro w ws' hw
    cases hg with
    | nil => simp at hw
    | cons fuel he t =>
      simp only [List.map_cons, List.cons.injEq] at hw
      exact ⟨fuel, _, _, hw.1, he⟩
  · obtain ⟨f, s', hs⟩ := hs
    cases hg with
    | nil => simp
    | cons fuel he t => exact absurd (Parser.nextEvent_unique he hs (by simp) (by simp)).1 (by simp)
  · have : gs = [] := by simpa using hs
    subst this
    cases hg
    exact hfin

theorem listDrive_ahead (toks : List TokenEntry) :
    ∀ p : PeekReader (List TokenEntry), p.reader.queue.heap = [] → p.peeked = none →
      p.reader.exhausted = false → p.reader.src = toks → Ahead listDrive p toks := by
  induction toks with
  | nil => intro p _ _ _ _; trivial
  | cons t ts ih =>
    intro p hq hp hx hs
    obtain ⟨q, hpk, hq1, hq2, hq3⟩ : ∃ q : PeekReader (List TokenEntry),
        p.peek listDrive = (.ok (some t), q) ∧ q.reader.queue.heap = [] ∧
        q.reader.exhausted = false ∧ q.reader.src = ts := by
      refine ⟨_, Prod.ext ?_ rfl, ?_, ?_, ?_⟩ <;>
        simp [PeekReader.peek, PeekReader.takeNext, hp, Queue.isEmpty, hq, Reader.scanTokens,
          listDrive, hs, hx, Reader.isExhausted, Queue.len, Queue.pop, Queue.popLeast, Queue.push]
    exact ⟨q, hpk, ih _ hq1 rfl hq2 hq3⟩

/-- The meaning of a token stream is unique. -/
theorem C38_meaning_unique {ts : List MaybeToken} {vs vs' : List EventData} (h : TStream ts vs)
    (h' : TStream ts vs') : vs = vs' := by
  have hm : (ts.map fun t => (⟨t, 0⟩ : TokenEntry)).map TokenEntry.wrap = ts := by
    simp [Function.comp_def]
  have ha := listDrive_ahead (ts.map fun t => (⟨t, 0⟩ : TokenEntry)) (PeekReader.new _) rfl rfl rfl rfl
  rw [← hm] at h h'
  obtain ⟨es, s, hy, hf, rfl⟩ := C38_parser_complete ha h
  exact ((C38_parser_exact ha h' hy).2.mp hf)

example : Ahead listDrive (PeekReader.new exampleTokens) exampleTokens :=
  listDrive_ahead _ _ rfl rfl rfl rfl

example : ∃ vs, TStream (exampleTokens.map TokenEntry.wrap) vs ∧ vs.length = 10 :=
  ⟨_, .docs .UTF8 (.explicit (d := [_]) (u := [_, _, _, _, _, _, _, _, _]) (x := [_]) (ts := [_])
      (.tag (ts := []) (bytes! "!e!") (bytes! "x:") .nil (by intro p h; simp [knownTags] at h))
      (.node (.blockMap (ps := []) .Root .none (by intro h s e; cases e)
        (.pair (u := [_]) (u' := [_, _, _, _, _]) (ts := [_])
          (.node (.scalar (ps := []) true .Key .none (by intro h s e; cases e) (.eager _ _)))
          (.value (.node (.flowSeq (ps := [_]) true .Value (.tag _ _)
            (by intro h s e; cases e; exact ⟨_, .head _⟩)
            (.first (u := [_]) (ts := [_])
              (.node (.scalar (ps := []) false .Entry .none (by intro h s e; cases e)
                (.eager _ _))) (.close false)))))
          .close)))
      .explicit (.done true)) (by decide), rfl⟩

end Yary
