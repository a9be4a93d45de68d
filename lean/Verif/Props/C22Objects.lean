import Verif.Proofs.NodeLines
/-! # C22 for the objects of any program -/

namespace WS
open Spec

/-- C22 at the public interface: whatever a program has made and read before, if the node of an object
can be built then `sourceAndMap` with columns answers, neither array of its map repeats an entry, and
every index in its mappings string is valid (`mapPoints` fails otherwise). No assumption is made on
given maps: ones with wrong indices, out of order or with repeated names are allowed. -/
theorem C22_objects (ops : List Op) (h h' : Heap) (i : Nat) (module_ : Bool) (file : Option Int)
    (n : SmNode) (hf : ∀ op ∈ ops, Spec.Op.Fits op) (hr : run ops = .ok h)
    (hn : apiNode h i true module_ = .ok (n, h')) :
    ∃ r, apiSourceAndMap h i true module_ file = .ok (r, h') ∧
      r.map.sources.Nodup ∧ r.map.names.Nodup ∧ (mapPoints r.map).isSome = true := by
  have hl := (hNode_lined _ _ _ _ _ _ _ _ (run_lined hf hr) hn).1
  obtain ⟨r, e, h1, h2, h3⟩ := C22_node n file none hl.leaves
  refine ⟨r, ?_, h1, h2, h3⟩
  unfold apiSourceAndMap
  rw [if_pos rfl, hn]
  dsimp only
  rw [e]

/-- A map with repeated names, a replacement and a prefix. -/
def C22_history : List Op :=
  [.newSms "ab;\ncd".toList 5 7 ⟨some ⟨[7, 7], [5], [], "AAAA,EAAC;AACA".toList⟩, none⟩ none none,
   .newReplace (.ref 0), .replace 1 1 2 "xyz".toList 16 32, .newPrefix "> ".toList (.ref 1)]

example : (∀ op ∈ C22_history, Spec.Op.Fits op) ∧
    ((run C22_history).toOption.bind fun h => (apiNode h 2 true false).toOption).isSome = true := by
  refine ⟨?_, by decide +kernel⟩
  intro op hop
  simp only [C22_history, List.mem_cons, List.not_mem_nil, or_false] at hop
  rcases hop with rfl | rfl | rfl | rfl
  · exact ⟨fun g hg => (by cases hg), fun x hx => (by cases hx)⟩
  · trivial
  · trivial
  · trivial

end WS
