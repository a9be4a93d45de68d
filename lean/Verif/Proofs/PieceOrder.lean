import Verif.Proofs.Shown
/-! # The points of pieces are in the order of the text -/

namespace WS
open Spec

theorem furtherLines_le (src : Int) (step : Nat) : ∀ (t : List Char) (l c n : Nat),
    ∀ y ∈ furtherLines src step l n t, LeB y.at (posFromB (l, c) t)
  | [], _, _, _, y, hy => by cases hy
  | d :: t, l, c, n, y, hy => by
    rw [furtherLines] at hy
    simp only [posFromB, List.foldl_cons, advanceB]
    split at hy
    · rename_i hd
      rw [if_pos hd]
      split at hy
      · cases hy
      · rcases List.mem_cons.1 hy with rfl | hy
        · exact posFromB_le t (l + 1, 0)
        · exact furtherLines_le src step t (l + 1) 0 _ y hy
    · rename_i hd
      rw [if_neg hd]
      exact furtherLines_le src step t l _ n y hy

theorem furtherLines_sorted (src : Int) (step : Nat) : ∀ (t : List Char) (l n : Nat),
    (furtherLines src step l n t).Pairwise fun a b => LeB a.at b.at
  | [], _, _ => List.Pairwise.nil
  | d :: t, l, n => by
    rw [furtherLines]
    split
    · split
      · exact List.Pairwise.nil
      · exact List.pairwise_cons.2 ⟨fun y hy => .inl (furtherLines_ge _ _ _ _ _ y hy),
          furtherLines_sorted src step t _ _⟩
    · exact furtherLines_sorted src step t l n

theorem piece_sorted (x : Piece) (p : Nat × Nat) : ((x.points p).Pairwise fun a b => LeB a.at b.at) ∧
    ∀ y ∈ x.points p, LeB y.at (posFromB p x.text) := by
  have mapped : ∀ src step n t, ((mappedLines src step n p t).Pairwise fun a b => LeB a.at b.at) ∧
      ∀ y ∈ mappedLines src step n p t, LeB y.at (posFromB p t) := by
    intro src step n t
    unfold mappedLines
    split
    · exact ⟨List.Pairwise.nil, by simp⟩
    · refine ⟨List.pairwise_cons.2 ⟨fun y hy => .inl (furtherLines_ge _ _ _ _ _ y hy),
        furtherLines_sorted _ _ _ _ _⟩, fun y hy => ?_⟩
      rcases List.mem_cons.1 hy with rfl | hy
      · exact posFromB_le t p
      · exact furtherLines_le src step t p.1 p.2 n y hy
  cases x with
  | plain t =>
    simp only [Piece.points, plainLines, Piece.text]
    split
    · refine ⟨List.pairwise_singleton .., fun y hy => ?_⟩
      rw [List.mem_singleton.1 hy]
      exact .inr ⟨rfl, Nat.zero_le _⟩
    · exact ⟨List.Pairwise.nil, by simp⟩
  | lines t s n => exact mapped _ _ _ _
  | single t s n => exact mapped _ _ _ _

theorem pieces_sorted : ∀ (xs : List Piece) (p : Nat × Nat),
    (piecesPoints p xs).Pairwise fun a b => LeB a.at b.at
  | [], _ => List.Pairwise.nil
  | x :: xs, p => by
    rw [piecesPoints, List.pairwise_append]
    exact ⟨(piece_sorted x p).1, pieces_sorted xs _, fun a ha b hb =>
      ((piece_sorted x p).2 a ha).trans (pieces_ge xs _ b hb)⟩

end WS
