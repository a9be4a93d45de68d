import Verif.Props.C12
/-! # C30 Prepending to a list map keeps the attribution of the prepended code; C31 toString -/

namespace WS
open Spec

/-- What prepending code should give, seen as pieces. -/
def Spec.prepended (code : List Char) (source : Option Int) (xs : List Piece) : List Piece :=
  (match source with | some s => .lines code s 1 | none => .plain code) :: xs

/-- C30 is false of the code: the two cases of `src/source_list_map/source_list_map.rs:90-97` are
exchanged. With a source, the code is put in front without origin; without one, it is attributed to
source -1. -/
theorem C30_not_general (m : Slm) (code : Str) (original : Option Int) (s : Int) (hc : code ≠ []) :
    (∃ m', slmPrepend m (.str code) (some s) original = .ok m' ∧
      m'.map LNode.piece = .plain code :: m.map LNode.piece ∧
      m'.map LNode.piece ≠ prepended code (some s) (m.map LNode.piece)) ∧
    (∃ m', slmPrepend m (.str code) none original = .ok m' ∧
      m'.map LNode.piece = .lines code (-1) 1 :: m.map LNode.piece ∧
      m'.map LNode.piece ≠ prepended code none (m.map LNode.piece)) := by
  refine ⟨⟨.code code :: m, rfl, rfl, ?_⟩, ⟨.source (LSource.new code none original 1) :: m, rfl, rfl, ?_⟩⟩
  · simp [prepended, LNode.piece]
  · simp [prepended, LNode.piece, LSource.new]

/-- C30, the part that holds: the text goes in front and what follows is unchanged; nodes and list maps
go in front with what they say. Missing: the attribution of prepended strings, see
`C30_not_general`. -/
theorem C30_prepend_partial (m : Slm) (n : LNode) (source original : Option Int)
    (hn : ∀ i, n ≠ .idx i) :
    ∃ ys m', slmPrepend m n source original = .ok m' ∧
      m'.map LNode.piece = ys ++ m.map LNode.piece ∧
      (match n with
        | .str s => piecesText ys = s
        | .map ch => ys = ch.map LNode.piece
        | n => ys = [n.piece]) := by
  cases n with
  | idx i => exact absurd rfl (hn i)
  | str s =>
    cases source with
    | none => exact ⟨[.lines s (-1) 1], _, rfl, rfl, by simp [piecesText, Piece.text]⟩
    | some k => exact ⟨[.plain s], _, rfl, rfl, by simp [piecesText, Piece.text]⟩
  | map ch => exact ⟨ch.map LNode.piece, ch ++ m, rfl, by simp, rfl⟩
  | code s => exact ⟨_, _, rfl, rfl, rfl⟩
  | source x => exact ⟨_, _, rfl, rfl, rfl⟩
  | single x => exact ⟨_, _, rfl, rfl, rfl⟩

/-- Adding at the end attributes as it should. -/
theorem C30_add (m : Slm) (code : Str) (source original : Option Int) :
    ∃ m', slmAdd m (.str code) source original = .ok m' ∧
      piecesMarks (m'.map LNode.piece) = piecesMarks (m.map LNode.piece) ++
        (match source with | some s => linesMarks s 1 1 code | none => code.map fun c => (c, none)) := by
  refine ⟨_, rfl, ?_⟩
  unfold slmAddStr
  cases source with
  | some s => simp [piecesMarks, LNode.piece, LSource.new, Piece.marks]
  | none =>
    simp only [Option.isSome_none, Bool.false_eq_true, if_false]
    split
    · rename_i c h
      have hne : m ≠ [] := by rintro rfl; cases h
      have hm : m = m.dropLast ++ [.code c] := by
        rw [List.getLast?_eq_some_getLast hne] at h
        rw [← Option.some.inj h]
        exact (List.dropLast_concat_getLast hne).symm
      conv => rhs; rw [hm]
      simp [piecesMarks, LNode.piece, Piece.marks]
    · simp [piecesMarks, LNode.piece, Piece.marks]

/-- Nodes and list maps are added at the end with what they say. -/
theorem C30_add_nodes (m : Slm) (n : LNode) (source original : Option Int) (hn : ∀ i, n ≠ .idx i)
    (hs : ∀ s, n ≠ .str s) :
    ∃ m', slmAdd m n source original = .ok m' ∧
      m'.map LNode.piece = m.map LNode.piece ++
        (match n with | .map ch => ch.map LNode.piece | n => [n.piece]) := by
  cases n with
  | idx i => exact absurd rfl (hn i)
  | str s => exact absurd rfl (hs s)
  | map ch => exact ⟨_, rfl, by simp⟩
  | code s => exact ⟨_, rfl, by simp⟩
  | source x => exact ⟨_, rfl, by simp⟩
  | single x => exact ⟨_, rfl, by simp⟩

example : ∃ m', slmAdd [.code "a".toList] (.map [.code "b".toList, .single (LSingle.new "c".toList (some 1) none 4)])
    none none = .ok m' ∧ m'.map LNode.piece = [.plain "a".toList, .plain "b".toList,
      (LNode.single (LSingle.new "c".toList (some 1) none 4)).piece] :=
  C30_add_nodes _ _ _ _ (by simp) (by simp)

/-- C31 is false of the code: `to_string` (`src/source_list_map/source_list_map.rs:181-189`) renders
single-line nodes only. -/
theorem C31_not_general (s : Str) (hs : s ≠ []) :
    slmToString [.code s] ≠ (slmToStringWithSourceMap [.code s] none).source := by
  intro h
  simp [slmToString, slmToStringWithSourceMap, slmText, LNode.text] at h
  exact hs h

/-- C31, the part that holds: list maps in which only single-line nodes have text. Missing: all
others. -/
theorem C31_toString_partial (m : Slm) (file : Option Int)
    (h : ∀ n ∈ m, (∃ x, n = .single x) ∨ n.text = []) :
    slmToString m = (slmToStringWithSourceMap m file).source := by
  show _ = slmText m
  unfold slmToString slmText
  congr 1
  refine List.map_congr_left fun n hn => ?_
  rcases h n hn with ⟨x, rfl⟩ | h
  · rfl
  · rw [h]
    cases n with
    | single x => exact h
    | _ => rfl

/-- C31, exactly: `toString` is the rendered text if and only if only single-line nodes have text. -/
theorem C31_exact (m : Slm) (file : Option Int) :
    slmToString m = (slmToStringWithSourceMap m file).source ↔
      ∀ n ∈ m, (∃ x, n = .single x) ∨ n.text = [] := by
  refine ⟨fun h => ?_, C31_toString_partial m file⟩
  replace h : slmToString m = slmText m := h
  have hlen := congrArg List.length h
  clear h
  induction m with
  | nil => intro n hn; cases hn
  | cons a m ih =>
    have hle : ∀ m : Slm, (slmToString m).length ≤ (slmText m).length := by
      intro m
      induction m with
      | nil => exact Nat.le_refl _
      | cons a m ih =>
        unfold slmToString slmText at ih ⊢
        simp only [List.map_cons, List.flatten_cons, List.length_append]
        cases a <;> simp only [LNode.text, List.length_nil] at ih ⊢ <;> omega
    have hm := hle m
    have e2 : slmText (a :: m) = a.text ++ slmText m := rfl
    have ha : (∃ x, a = .single x) ∨ a.text = [] := by
      cases a with
      | single x => exact .inl ⟨x, rfl⟩
      | _ =>
        rw [e2, List.length_append] at hlen
        replace hlen : (slmToString m).length = _ := hlen
        exact .inr (List.eq_nil_of_length_eq_zero (by omega))
    intro n hn
    rcases List.mem_cons.1 hn with rfl | hn
    · exact ha
    · refine ih ?_ n hn
      rw [e2, List.length_append] at hlen
      rcases ha with ⟨x, rfl⟩ | ha
      · replace hlen : (x.code ++ slmToString m).length = x.code.length + _ := hlen
        rw [List.length_append] at hlen; omega
      · rw [ha] at hlen
        cases a with
        | single x =>
          replace hlen : (x.code ++ slmToString m).length = _ := hlen
          rw [show x.code = [] from ha] at hlen
          simpa using hlen
        | _ => 
          replace hlen : (slmToString m).length = _ := hlen
          simpa using hlen

/-! Non-trivial case. -/

example : slmToString [.single (LSingle.new "a\n".toList (some 1) none 1), .code [],
    .single (LSingle.new "b".toList none none 4)] = "a\nb".toList := by decide +kernel
example : ∀ n ∈ ([.single (LSingle.new "a\n".toList (some 1) none 1), .code [],
    .single (LSingle.new "b".toList none none 4)] : Slm), (∃ x, n = .single x) ∨ n.text = [] := by
  intro n hn
  simp only [List.mem_cons, List.not_mem_nil, or_false] at hn
  rcases hn with rfl | rfl | rfl <;> simp [LNode.text]

end WS
