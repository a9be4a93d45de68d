import Verif.Proofs.JsWithin
/-!
# C47: the strings in emitted maps are strings the program supplied

The properties `sources`, `sourcesContent` and `names` of an emitted map are looked up in a table shared
by everything (`wasm-api/StringCache.js`) with the indices that come back from wasm.

Every string found there was supplied by the program in the same role: a source name as a source name,
a content as a content, a name as a name; besides, a source may be `null` (a line the given map assigns to
a source it does not list). No index points outside the table, so no program stops with "No element
indexed by".

`clear()` is not in the model; after it indices point nowhere (`C24`).
-/

namespace WS
open Spec

/-- The exception for an index outside the table does not occur. -/
theorem C47_resolves (ops : List JOp) : World.run ops ≠ .error .missing := by
  intro h
  have := World.run_within ops
  rw [h] at this
  exact this rfl

/-- Strings come back in the role in which they were supplied. -/
theorem C47_strings (ops : List JOp) (w w' : World) (k : Nat) (f : JField) (l : List JVal)
    (e : World.run ops = .ok w) (r : (JOp.get k f).run w = .ok (.field (.list l), w')) :
    ∀ v ∈ l, v ∈ supplied ops f ∨ (f = .sources ∧ v = none) := by
  have W := World.run_within ops
  rw [e] at W
  have W : w.Within (supplied ops) := W
  simp only [JOp.run] at r
  split at r
  · cases r
  · rename_i m hm
    simp only [Except.map_ok_iff] at r
    obtain ⟨⟨x, m'⟩, h1, h2⟩ := r
    cases h2
    have := (W.maps m (List.mem_of_getElem? hm)).get f
    rw [h1] at this
    intro v hv
    have := this.1 l rfl v hv
    cases f with
    | sources => exact this.elim (fun h => .inr ⟨rfl, h⟩) .inl
    | source | contents | mappings | names => exact .inl this

/-- The same on the wasm side: indices in an answer are in the sets, when the indices in all
arguments are. A node of a list map without a source is rendered as `-1`. -/
theorem C47_indices (D : Dom) (ops : List Op) (h h' : Heap) (op : Op) (a : Answer)
    (ho : ∀ op ∈ ops, op.In D) (hop : op.In D) (e : run ops = .ok h) (r : op.run h = .ok (a, h')) :
    a.In D ∧
    (∀ n, a = .node n → ∀ file root s, n.toStringWithSourceMap file root = .ok s → s.map.In D) ∧
    (∀ m, a = .listMap m → D.S (-1) → ∀ file, (slmToStringWithSourceMap m file).map.In D) := by
  have H := Op.run_in (runFrom_in (fun i o e => (by simp at e)) ho e) hop r
  refine ⟨H.1, ?_, ?_⟩
  · rintro n rfl file root s es
    have hn : n.In D := H.1
    simp only [SmNode.toStringWithSourceMap] at es
    split at es
    · cases es
    · rename_i m g em
      cases es
      exact (Generator.In.toSourceMap (toStringWithGenerator_in hn file root) em).1
  · rintro m rfl h1 file
    exact slmToStringWithSourceMap_in H.1 h1 file

/-- An original source, and a source map over generated text naming a second source and a third that
the map does not list. -/
def c47Program : List JOp :=
  [.newOriginal "a\n".toList "a.js".toList,
   .newSms "x\ny\n".toList "gen.js".toList
     (.plain [some "b.ts".toList] [some "b".toList] [some "n".toList] "AAAAA;ACAA".toList) none none,
   .newConcat [.obj 0, .obj 1],
   .sourceAndMap 2 true true]

example : supplied c47Program .sources =
    [some "a.js".toList, some "gen.js".toList, some "b.ts".toList] := by decide +kernel
example : supplied c47Program .contents =
    [some "a\n".toList, some "x\ny\n".toList, some "b".toList] := by decide +kernel

/-- Column-level emission stops: the index is outside the list of the given map. -/
example : (World.run c47Program).isOk = false := by decide +kernel

/-- Line by line, the missing source is `null`. -/
def c47Lines : List JOp := c47Program.dropLast ++ [.sourceAndMap 2 false true]

example : ((World.run c47Lines).bind fun w => ((JOp.get 0 .sources).run w).map Prod.fst) =
    .ok (.field (.list [some "a.js".toList, some "b.ts".toList, none])) := by decide +kernel
example : ((World.run c47Lines).bind fun w => ((JOp.get 0 .contents).run w).map Prod.fst) =
    .ok (.field (.list [some "a\n".toList, some "b".toList])) := by decide +kernel

/-- With a map that lists what it uses, names come back as well. -/
def c47Names : List JOp :=
  [.newSms "x\n".toList "gen.js".toList
     (.plain [some "b.ts".toList] [some "b".toList] [some "n".toList] "AAAAA".toList) none none,
   .sourceAndMap 0 true true]

example : ((World.run c47Names).bind fun w => ((JOp.get 0 .names).run w).map Prod.fst) =
    .ok (.field (.list [some "n".toList])) := by decide +kernel

/-- The sets of the call on the wasm side. -/
example : (Op.newOriginal "a".toList 3 4).In ⟨(· = 3), (· = 4), fun _ => False⟩ := ⟨rfl, rfl⟩

end WS
