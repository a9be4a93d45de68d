import Verif.Props.C12
import Verif.Props.C22Lines
/-! # C12 for the objects of any program -/

namespace WS
open Spec

theorem SlmGoodLines.ok {m : Slm} (h : SlmGoodLines m) : ∀ n ∈ m, n.Ok := by
  intro n hn
  have h1 := C42_lines (h.1 n hn)
  have h2 := h.2.1 n hn
  cases n with
  | str s => exact h2
  | source n => exact ⟨h1, fun _ => h2⟩
  | single n => exact ⟨h1, fun _ => h2⟩
  | _ => trivial

theorem objects_list_points {ops : List Op} {h h' : Heap} {i : Nat} {module_ : Bool} (file : Option Int)
    {m : Slm} (hf : ∀ op ∈ ops, op.LineOk) (hr : run ops = .ok h)
    (hm : apiListMap h i false module_ = .ok (m, h')) :
    (∀ n ∈ m, (∃ s, n = .code s) ∨ (∃ x, n = .source x) ∨ ∃ x, n = .single x) ∧
    ∃ r, apiSourceAndMap h i false module_ file = .ok (r, h') ∧
      r.source = piecesText (m.map LNode.piece) ∧
      mapPoints r.map = some (piecesPoints (1, 0) (m.map LNode.piece)) ∧
      AttributesB (piecesPoints (1, 0) (m.map LNode.piece)) (1, 0)
        (shown none (piecesMarks (m.map LNode.piece))) := by
  have H : Heap.All Obj.LineSafe h := runFrom_lineSafe (fun i o e => (by simp at e)) hf hr
  have hg := (hListMap_lineSafe _ _ _ _ _ _ _ _ H hm).1
  obtain ⟨e1, e2⟩ := C12_segments_partial m file hg.ok
  refine ⟨?_, slmToStringWithSourceMap m file, ?_, e2, e1, pieces_attributed _⟩
  · intro n hn
    have := hg.2.1 n hn
    cases n with
    | code s => exact .inl ⟨s, rfl⟩
    | source x => exact .inr (.inl ⟨x, rfl⟩)
    | single x => exact .inr (.inr ⟨x, rfl⟩)
    | str s => exact absurd this id
    | map l => exact absurd this id
    | idx i => exact absurd this id
  · unfold apiSourceAndMap
    simp only [Bool.false_eq_true, if_false]
    rw [hm]

/-- C12 at the public interface: the list map of an object of any program consists of code, source and
single-line nodes only, and the map that `sourceAndMap` with `columns: false` returns has, by the rules of
the format, exactly the points of these pieces. -/
theorem C12_objects (ops : List Op) (h h' : Heap) (i : Nat) (module_ : Bool) (file : Option Int)
    (m : Slm) (hf : ∀ op ∈ ops, Spec.Op.LinesFit op) (hr : run ops = .ok h)
    (hm : apiListMap h i false module_ = .ok (m, h')) :
    (∀ n ∈ m, (∃ s, n = .code s) ∨ (∃ x, n = .source x) ∨ ∃ x, n = .single x) ∧
    ∃ r, apiSourceAndMap h i false module_ file = .ok (r, h') ∧
      r.source = piecesText (m.map LNode.piece) ∧
      mapPoints r.map = some (piecesPoints (1, 0) (m.map LNode.piece)) ∧
      AttributesB (piecesPoints (1, 0) (m.map LNode.piece)) (1, 0)
        (shown none (piecesMarks (m.map LNode.piece))) :=
  objects_list_points file (fun op ho => .of_fit (hf op ho)) hr hm

example : ((run C22_history).toOption.bind fun h => (apiListMap h 2 false true).toOption).isSome = true := by
  decide +kernel

end WS
