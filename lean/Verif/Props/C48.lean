import Verif.Proofs.JsEmitted
/-!
# C48: the properties of an emitted map

The maps handed out by `sourceAndMap()` and `map()` compute their properties on demand
(`wasm-api/utils/createStringWithSourceMap.js`).

Full claim: a property reads the same whenever and however often it is read, until it is assigned,
whatever else the program does; in particular also after the map was given to a `SourceMapSource`.

Proved: a property that was read once keeps its value through everything but an assignment to it
(`C48_keeps_partial`); before the first read the moment does not matter as long as the map is not given
away (`C48_when_partial`).

False of the code otherwise (`C48_moved`): giving the map to a `SourceMapSource` moves its wasm object,
and a property that was not read before throws; the map cannot be given to a second one then.
-/

namespace WS
open Spec

/-- A property that was read keeps its value, from every state on. -/
theorem C48_keeps_partial (more : List JOp) (w w1 w2 : World) (k : Nat) (f : JField)
    (v : JFieldVal) (r : (JOp.get k f).run w = .ok (.field v, w1))
    (hm : ∀ a, .set k a ∈ more → a.field ≠ f) (e : w1.runFrom more = .ok w2) :
    ∃ w3, (JOp.get k f).run w2 = .ok (.field v, w3) := by
  simp only [JOp.run] at r
  split at r
  · cases r
  · rename_i e0 he0
    simp only [Except.map_ok_iff] at r
    obtain ⟨⟨v', e1⟩, h1, h2⟩ := r
    cases h2
    obtain ⟨e2, h3, h4⟩ := (Keeps.lasting f v').runFrom
      (w := { w with maps := w.maps.set k e1 }) (k := k)
      (List.getElem?_set_self (List.getElem?_eq_some_iff.1 he0).1) (Emitted.get_keeps h1)
      (fun _ _ _ h => Keeps.move h) (fun a ha _ _ h => Keeps.set h (hm a ha)) e
    exact ⟨_, by simp only [JOp.run, h3, h4.get w2, Except.map]; rfl⟩

/-- The moment of the first read does not matter while the map is not given away. -/
theorem C48_when_partial (more : List JOp) (w w1 w2 : World) (k : Nat) (f : JField)
    (v : JFieldVal) (r : (JOp.get k f).run w = .ok (.field v, w1))
    (hm : ∀ a, .set k a ∈ more → a.field ≠ f) (hg : ∀ op ∈ more, ¬ op.gives k)
    (e : w.runFrom more = .ok w2) : ∃ w3, (JOp.get k f).run w2 = .ok (.field v, w3) := by
  simp only [JOp.run] at r
  split at r
  · cases r
  · rename_i e0 he0
    simp only [Except.map_ok_iff] at r
    obtain ⟨⟨v', e1⟩, h1, h2⟩ := r
    cases h2
    obtain ⟨e2, h3, h4⟩ := (Reads.lasting f v').runFrom he0 (Emitted.get_cases h1)
      (fun ⟨op, ho, hgo⟩ => absurd hgo (hg op ho))
      (fun a ha _ _ h => h.imp (fun h => Keeps.set h (hm a ha)) (fun h => Fresh.set h (hm a ha))) e
    rcases h4 with h4 | h4
    · exact ⟨_, by simp only [JOp.run, h3, h4.get w2, Except.map]; rfl⟩
    · obtain ⟨e3, h5⟩ := h4.get
      exact ⟨_, by simp only [JOp.run, h3, h5, Except.map]; rfl⟩

/-- A map is emitted, some properties are read, and it is given to a SourceMapSource. -/
def c48Program : List JOp :=
  [.newOriginal "a b\n".toList "o.js".toList, .sourceAndMap 0 true true]

/-- What happens between the reads. -/
def c48More : List JOp :=
  [.newOriginal "c\n".toList "p.js".toList, .newConcat [.obj 0, .obj 1], .source 2, .get 0 .mappings,
   .set 0 (.names [some "n".toList]),
   .newSms "a b\n".toList "g.js".toList (.emitted 0) none none]

example : ((World.run c48Program).bind fun w => ((JOp.get 0 .sources).run w).map Prod.fst) =
    .ok (.field (.list [some "o.js".toList])) := by decide +kernel
example : ((World.run (c48Program ++ [.get 0 .sources] ++ c48More)).bind fun w =>
    ((JOp.get 0 .sources).run w).map Prod.fst) =
    .ok (.field (.list [some "o.js".toList])) := by decide +kernel
example : ∀ a, .set 0 a ∈ c48More → a.field ≠ .sources := by
  intro a h
  simp [c48More] at h
  subst h; decide

/-- The emitted map is given to a SourceMapSource. -/
def c48Move : List JOp := c48Program ++ [.newSms "a b\n".toList "g.js".toList (.emitted 0) none none]

/-- Before, `sources` can be read; afterwards it throws, and so does giving the map away again. -/
theorem C48_moved :
    ((World.run c48Program).bind fun w => ((JOp.get 0 .sources).run w).map Prod.fst) =
      .ok (.field (.list [some "o.js".toList])) ∧
    ((World.run c48Move).bind fun w => ((JOp.get 0 .sources).run w).map Prod.fst) = .error .moved ∧
    ((World.run c48Move).bind fun w => ((JOp.newSms "a b\n".toList "h.js".toList (.emitted 0) none
      none).run w).map Prod.fst) = .error .moved := by
  refine ⟨by decide +kernel, by decide +kernel, by decide +kernel⟩

end WS
