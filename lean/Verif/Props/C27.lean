import Verif.Props.C12
import Verif.Props.C26
/-! # C27 Line-to-line sources map line i to line i -/

namespace WS
open Spec

/-- Every character of the text `v` is attributed to column 0 of the line of the source that has the
number of its own line; `pos` tells where a text ends. -/
def Spec.LineToLine (pos : List Char → Nat × Nat) (ps : List Point) (name : Int) (v : List Char) : Prop :=
  ∀ k c, v[k]? = some c →
    lookup ps (pos (v.take k)).1 (pos (v.take k)).2 = some ⟨name, 1 + (v.take k).count '\n', 0, none⟩

theorem linesMarks_getElem (src : Int) (step : Nat) : ∀ (v : Str) (n k : Nat) (c : Char), v[k]? = some c →
    (linesMarks src step n v)[k]? = some (c, some (src, n + (v.take k).count '\n' * step))
  | [], _, _, _, h => by simp at h
  | d :: v, n, 0, c, h => by
    simp only [List.getElem?_cons_zero, Option.some.injEq] at h
    simp [linesMarks, h]
  | d :: v, n, k + 1, c, h => by
    rw [List.getElem?_cons_succ] at h
    rw [linesMarks, List.getElem?_cons_succ, linesMarks_getElem src step v _ k c h, List.take_succ_cons]
    by_cases hd : d = '\n'
    · subst hd
      rw [if_pos rfl, List.count_cons_self, Nat.add_mul]
      simp only [Option.some.injEq, Prod.mk.injEq, true_and]
      omega
    · rw [if_neg hd, List.count_cons_of_ne hd]

theorem linesMarks_take (src : Int) (step n k : Nat) (v : Str) :
    ((linesMarks src step n v).take k).map Prod.fst = v.take k := by
  rw [List.map_take, linesMarks_fst]

theorem shown_lines (src : Int) (step : Nat) : ∀ (v : Str) (n : Nat) (cur : Option (Int × Nat)),
    shown cur (linesMarks src step n v) = linesMarks src step n v
  | [], _, _ => rfl
  | c :: v, n, cur => by simp only [linesMarks, shown, Option.some_or]; rw [shown_lines src step v]

/-- The origins of the line nodes. -/
def lineOrigin (x : Char × Option (Int × Nat)) : Char × Option Origin :=
  (x.1, x.2.map fun y => ⟨y.1, y.2, 0, none⟩)

theorem marked_lines (name : Int) : ∀ (v : Str) (i : Nat),
    marked (linesLeaves false name i (splitKeep '\n' v)) = (linesMarks name 1 i v).map lineOrigin
  | [], i => by simp [splitKeep, linesLeaves, lineLeaves, marked, linesMarks]
  | c :: v, i => by
    rw [splitKeep, linesMarks]
    by_cases hc : c = '\n'
    · rw [if_pos hc, if_pos hc, linesLeaves, List.map_cons, ← marked_lines name v (i + 1)]
      simp [lineLeaves, marked, lineOrigin]
    · rw [if_neg hc, if_neg hc, List.map_cons, ← marked_lines name v i]
      cases hs : splitKeep '\n' v with
      | nil => exact absurd hs (splitKeep_ne_nil _ _)
      | cons l ls =>
        simp only [linesLeaves]
        cases l with
        | nil => simp [lineLeaves, marked, lineOrigin]
        | cons d l => simp [lineLeaves, marked, lineOrigin]

theorem splitKeep_length (v : Str) : (splitKeep '\n' v).length = 1 + v.count '\n' := by
  induction v with
  | nil => rfl
  | cons c v ih =>
    rw [splitKeep]
    by_cases hc : c = '\n'
    · subst hc; rw [if_pos rfl, List.length_cons, ih, List.count_cons_self]; omega
    · rw [if_neg hc, List.count_cons_of_ne hc]
      cases hs : splitKeep '\n' v with
      | nil => exact absurd hs (splitKeep_ne_nil _ _)
      | cons l ls => rw [hs] at ih; simpa using ih

theorem linesLeaves_ok (name : Int) : ∀ (ls : List Str) (i : Nat), 1 ≤ i → i + ls.length ≤ 4294967297 →
    ∀ l ∈ linesLeaves false name i ls, LeafOk l
  | [], _, _, _, l, hl => by cases hl
  | x :: ls, i, h1, h2, l, hl => by
    rw [linesLeaves] at hl
    rw [List.length_cons] at h2
    rcases List.mem_append.1 hl with hl | hl
    · simp only [lineLeaves, Bool.false_eq_true, if_false] at hl
      split at hl
      · cases hl
      · rename_i hx
        rw [List.mem_singleton.1 hl]
        intro o ho
        cases ho
        exact ⟨by simpa using hx, h1, by simp only; omega⟩
    · exact linesLeaves_ok name ls (i + 1) (by omega) (by omega) l hl

/-- C27 for the column-level map of a `LineToLineMappedSource` (of fewer than 2^32 lines). -/
theorem C27_columns (v : Str) (name original : Int) (file : Option Int) (root : Option Str)
    (hlines : v.count '\n' < 4294967296) :
    ∃ r ps, (l2lNode v name original).toStringWithSourceMap file root = .ok r ∧
      mapPoints r.map = some ps ∧ LineToLine posAfter ps name v ∧ r.source = v := by
  have hL := l2lNode_leaves v name original
  have hok : ∀ l ∈ (l2lNode v name original).leaves, LeafOk l := by
    rw [hL]
    exact linesLeaves_ok name _ 1 (Nat.le_refl 1) (by rw [splitKeep_length]; omega)
  obtain ⟨r, ps, h1, h2, h3, _, h5⟩ := C09_attribution_partial _ file root hok
  refine ⟨r, ps, h1, h2, ?_, ?_⟩
  · intro k c hk
    have hm : (l2lNode v name original).marks = (linesMarks name 1 1 v).map lineOrigin := by
      unfold SmNode.marks; rw [hL, marked_lines]
    have hg : (l2lNode v name original).marks[k]? =
        some (c, some ⟨name, 1 + (v.take k).count '\n', 0, none⟩) := by
      rw [hm, List.getElem?_map, linesMarks_getElem name 1 v 1 k c hk]
      simp [lineOrigin]
    have := h3 k c _ hg
    have hf : ((l2lNode v name original).marks.take k).map Prod.fst = v.take k := by
      rw [hm, ← List.map_take, List.map_map]
      exact linesMarks_take name 1 1 k v
    rw [hf] at this
    exact this
  · rw [h5]
    have := (linesLeaves_spec false name (splitKeep '\n' v) 1).1
    rw [splitKeep_flatten] at this
    unfold SmNode.text
    rw [hL]
    exact this

theorem lines_map (v : Str) (name original : Int) (file : Option Int) :
    ∃ ps, mapPoints (slmToStringWithSourceMap (slmNewStr v (some name) (some original)) file).map = some ps ∧
      LineToLine (posFromB (1, 0)) ps name v ∧
      (slmToStringWithSourceMap (slmNewStr v (some name) (some original)) file).source = v := by
  have hm : ∀ n ∈ slmNewStr v (some name) (some original), n.Ok := by
    intro n hn
    simp only [slmNewStr, slmAddStr, Option.isSome_some, if_true, List.nil_append, List.mem_singleton] at hn
    subst hn
    exact ⟨rfl, fun _ => Nat.le_refl 1⟩
  have hp : (slmNewStr v (some name) (some original)).map LNode.piece = [.lines v name 1] := rfl
  obtain ⟨h1, h2⟩ := C12_segments_partial _ file hm
  obtain ⟨ps, h3, h4⟩ := C12_lookup_partial _ file hm
  rw [hp] at h4 h2
  refine ⟨ps, h3, ?_, by rw [h2]; simp [piecesText, Piece.text]⟩
  have hs : shown none (piecesMarks [.lines v name 1]) = linesMarks name 1 1 v := by
    simp [piecesMarks, Piece.marks, shown_lines]
  rw [hs] at h4
  intro k c hk
  have := h4 k c _ (linesMarks_getElem name 1 v 1 k c hk)
  rw [linesMarks_take] at this
  rw [this]
  simp

/-- C27 for the line-level map of a `LineToLineMappedSource`. -/
theorem C27_lines (v : Str) (name original : Int) (file : Option Int) :
    ∃ ps, mapPoints (slmToStringWithSourceMap (l2lListMap v name original) file).map = some ps ∧
      LineToLine (posFromB (1, 0)) ps name v ∧
      (slmToStringWithSourceMap (l2lListMap v name original) file).source = v :=
  lines_map v name original file

/-- C27 for the line-level map of an `OriginalSource`. -/
theorem C27_original (v : Str) (name idx : Int) (file : Option Int) :
    ∃ ps, mapPoints (slmToStringWithSourceMap (originalListMap v name idx) file).map = some ps ∧
      LineToLine (posFromB (1, 0)) ps name v ∧
      (slmToStringWithSourceMap (originalListMap v name idx) file).source = v :=
  lines_map v name idx file

/-- The lines of positions, in characters or bytes, are the same: the number of newlines before, and 1. -/
theorem C27_pos (s : Str) : (posAfter s).1 = 1 + s.count '\n' ∧ (posFromB (1, 0) s).1 = 1 + s.count '\n' :=
  ⟨posAfter_line s, by rw [posFromB_eq]; rfl⟩

/-! Non-trivial case. -/

example : ((l2lNode "é\n\nc;d\n".toList 1 2).toStringWithSourceMap none none).toOption.bind
    (fun r => mapPoints r.map) =
    some [⟨1, 0, some ⟨1, 1, 0, none⟩⟩, ⟨2, 0, some ⟨1, 2, 0, none⟩⟩, ⟨3, 0, some ⟨1, 3, 0, none⟩⟩] := by
  decide +kernel
example : mapPoints (slmToStringWithSourceMap (l2lListMap "é\n\nc;d\n".toList 1 2) none).map =
    some [⟨1, 0, some ⟨1, 1, 0, none⟩⟩, ⟨2, 0, some ⟨1, 2, 0, none⟩⟩, ⟨3, 0, some ⟨1, 3, 0, none⟩⟩] := by
  decide +kernel

end WS
