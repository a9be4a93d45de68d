import Verif.Props.C06
import Verif.Props.C09
import Verif.Proofs.Seen
/-! # From the calls of a history to the reads on trees -/

namespace WS
open Spec

theorem api_sourceAndMap_columns {A : AHeap} (hst : A.Stable) {h : Heap} (H : Abs A h) {i : Nat}
    {t : Tree} (u : Unfolds A (.ref i) t) {mod : Bool} {n : SmNode} (hn : t.node true mod = .ok n)
    {file : Option Int} {r : StringWithSourceMap} (hr : n.toStringWithSourceMap file none = .ok r) :
    ∃ h', Abs A h' ∧ apiSourceAndMap h i true mod file = .ok (r, h') := by
  obtain ⟨h', H', e⟩ := api_node hst H true mod u
  rw [hn] at e
  refine ⟨h', H', ?_⟩
  rw [apiSourceAndMap, if_pos rfl, e]
  simp only [Except.map, hr]

theorem api_sourceAndMap_lines {A : AHeap} (hst : A.Stable) {h : Heap} (H : Abs A h) {i : Nat}
    {t : Tree} (u : Unfolds A (.ref i) t) {mod : Bool} {m : Slm} (hm : t.listMap false mod = .ok m)
    (file : Option Int) :
    ∃ h', Abs A h' ∧ apiSourceAndMap h i false mod file = .ok (slmToStringWithSourceMap m file, h') := by
  obtain ⟨h', H', e⟩ := api_listMap hst H false mod u
  rw [hm] at e
  refine ⟨h', H', ?_⟩
  rw [apiSourceAndMap, if_neg (by decide), e]
  simp only [Except.map]

/-- The object made by the `i`-th constructor call. -/
theorem object_of_created {ops : List Op} {A : AHeap} (hA : stepAll [] ops = .ok A) {i : Nat} {op : Op}
    (hc : (created ops)[i]? = some op) : A[i]? = objOf ops i op := by
  rw [stepAll_described hA i, hc]
  rfl

/-- `node()` succeeds exactly with the node of the tree. -/
theorem api_node_iff {A : AHeap} (hst : A.Stable) {h : Heap} (H : Abs A h) (i : Nat) (cols mod : Bool)
    (n : SmNode) : (∃ h', apiNode h i cols mod = .ok (n, h')) ↔
      ∃ t, Unfolds A (.ref i) t ∧ t.node cols mod = .ok n := by
  constructor
  · rintro ⟨h', e⟩
    obtain ⟨t, hs, _⟩ := hNode_seen A cols mod _ _ _ _ _ _ H e
    obtain ⟨t', hu, _⟩ := hs.text
    obtain ⟨g, _, e'⟩ := api_node hst H cols mod hu
    rw [e] at e'
    cases hn : t'.node cols mod with
    | error x => rw [hn] at e'; cases e'
    | ok n' => rw [hn] at e'; cases e'; exact ⟨t', hu, hn⟩
  · rintro ⟨t, hu, hn⟩
    obtain ⟨g, _, e'⟩ := api_node hst H cols mod hu
    rw [hn] at e'
    exact ⟨g, e'⟩

end WS
