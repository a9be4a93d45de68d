import Verif.Proofs.Shown
/-! # C12 Line-level maps point each line of each node at the right original line -/

namespace WS
open Spec

theorem MapCtx.new_table : MapCtx.new.Table := by intro k p h; simp [MapCtx.new] at h

theorem slm_pieces_text (m : Slm) : slmText m = piecesText (m.map LNode.piece) := by
  unfold slmText piecesText
  rw [List.map_map]
  congr 1
  exact List.map_congr_left fun n _ => n.piece_text.symm

/-- C12, for list maps whose mapped nodes count their lines right (C42: all do), start at a line
numbered from 1, and that hold no bare string. The map decoded by the rules of the format consists of
exactly the points of the pieces; the text is that of the pieces. Missing: bare strings among the
children, see `C12_not_general`. -/
theorem C12_segments_partial (m : Slm) (file : Option Int) (hm : ∀ n ∈ m, n.Ok) :
    mapPoints (slmToStringWithSourceMap m file).map =
      some (piecesPoints (1, 0) (m.map LNode.piece)) ∧
    (slmToStringWithSourceMap m file).source = piecesText (m.map LNode.piece) := by
  refine ⟨?_, slm_pieces_text m⟩
  rw [mapPoints, points_eq]
  refine slm_points m MapCtx.new 1 0 MapCtx.new_table (Nat.le_refl 1) hm (fun _ => rfl) ?_
  intro k p hk
  simp only [slmToStringWithSourceMap]
  rw [List.getElem?_map, hk]
  rfl

/-- C12 for single characters: a mapped character is attributed to its source and line, an unmapped one
to what is attributed before it on its line. -/
theorem C12_lookup_partial (m : Slm) (file : Option Int) (hm : ∀ n ∈ m, n.Ok) :
    ∃ ps, mapPoints (slmToStringWithSourceMap m file).map = some ps ∧
      AttributesB ps (1, 0) (shown none (piecesMarks (m.map LNode.piece))) :=
  ⟨_, (C12_segments_partial m file hm).1, pieces_attributed _⟩

/-- A bare string writes its text but no mapping lines (`src/source_list_map/source_list_map.rs:194-217`):
the lines after it are attributed too early. -/
theorem C12_not_general :
    let m : Slm := [.str "a\n".toList, .source (LSource.new "b".toList (some 7) none 3)]
    (slmToStringWithSourceMap m none).source = "a\nb".toList ∧
    mapPoints (slmToStringWithSourceMap m none).map = some [⟨1, 0, some ⟨7, 3, 0, none⟩⟩] ∧
    piecesPoints (1, 0) (m.map LNode.piece) = [⟨2, 0, some ⟨7, 3, 0, none⟩⟩] := by
  decide +kernel

/-! Non-trivial case. -/

/-- Code before, inside and after mapped code, with multi-byte characters. -/
def C12_sample : Slm :=
  [.code "é ".toList, .source (LSource.new "a\nb\nc".toList (some 7) (some 8) 3), .code "x\ny".toList,
    .single (LSingle.new "p\nq\n".toList (some 9) none 5), .map [.code "lost".toList], .idx 4,
    .single (LSingle.new "r".toList (some 7) none 1)]

example : ∀ n ∈ C12_sample, n.Ok := by
  intro n hn
  simp only [C12_sample, List.mem_cons, List.not_mem_nil, or_false] at hn
  rcases hn with rfl | rfl | rfl | rfl | rfl | rfl | rfl <;>
    simp [LNode.Ok, LSource.new, LSingle.new]

example : mapPoints (slmToStringWithSourceMap C12_sample none).map = some
    [⟨1, 0, none⟩, ⟨1, 3, some ⟨7, 3, 0, none⟩⟩, ⟨2, 0, some ⟨7, 4, 0, none⟩⟩, ⟨3, 0, some ⟨7, 5, 0, none⟩⟩,
      ⟨4, 0, none⟩, ⟨4, 1, some ⟨9, 5, 0, none⟩⟩, ⟨5, 0, some ⟨9, 5, 0, none⟩⟩,
      ⟨6, 0, some ⟨7, 1, 0, none⟩⟩] := by decide +kernel

end WS
