import Verif.Proofs.SplitNode
/-! # C39 Splitting a node tree is lossless -/

namespace WS
open Spec

/-- C39. Splitting a tree at a character position gives two trees whose joined characters, each with
its attribution, are those of the tree, the left one having as many as asked for; otherwise the tree
is handed back and the shortfall is reported, which is positive unless the tree has no strings at
all. -/
theorem C39_split (n : SmNode) (pos : Int) :
    match splitSm n pos with
    | .ok (l, r) => l.marks ++ r.marks = n.marks ∧ l.marks.length = pos.toNat
    | .error (q, n') => n' = n ∧ q = pos - n.marks.length ∧ (0 < q ∨ n.leaves = []) := by
  have hl : ∀ x : SmNode, SmNode.leavesList none [x] = x.leaves := by
    intro x
    cases x with
    | str s => simp [SmNode.leavesList, SmNode.leaves]
    | node => rw [leavesList_single_node, SmNode.leaves]
  have h := splitSm_ok none n pos
  unfold SplitOk at h
  have k := splitLeaves_marks n.leaves pos
  revert h
  rcases splitSm n pos with ⟨q, n'⟩ | ⟨l, r⟩
  · rintro ⟨h1, h2⟩
    rw [hl] at h2
    rw [h2] at k
    exact ⟨h1, k⟩
  · intro h
    dsimp only at h
    rw [hl, hl, hl] at h
    rw [h] at k
    exact k

/-- C39: a tree with a string in it can be split at every position up to its length. -/
theorem C39_total (n : SmNode) (pos : Int) (hp : pos ≤ n.marks.length) (hn : n.leaves ≠ []) :
    ∃ l r, splitSm n pos = .ok (l, r) := by
  have h := C39_split n pos
  cases e : splitSm n pos with
  | ok lr => exact ⟨lr.1, lr.2, rfl⟩
  | error q =>
    rw [e] at h
    obtain ⟨_, h2, h3⟩ := h
    rcases h3 with h3 | h3
    · omega
    · exact absurd h3 hn

/-! Non-trivial case: a cut inside the second of two nodes with origins. -/

/-- `ab` from line 1, `cde` from line 2. -/
def C39_tree : SmNode := SmNode.mkVec none none none
  [SmNode.mkStr (some (1, 0)) (some 7) none "ab".toList,
   SmNode.mkStr (some (2, 4)) (some 7) none "cde".toList]

example : (match splitSm C39_tree 3 with
    | .ok (l, r) => some (l.marks, r.marks)
    | .error _ => none) =
    some ([('a', some ⟨7, 1, 0, none⟩), ('b', some ⟨7, 1, 0, none⟩), ('c', some ⟨7, 2, 4, none⟩)],
      [('d', some ⟨7, 2, 4, none⟩), ('e', some ⟨7, 2, 4, none⟩)]) := by decide +kernel

example : (match splitSm C39_tree 8 with
    | .ok _ => none
    | .error (q, _) => some q) = some 3 := by decide +kernel

end WS
