import Verif.Proofs.FromString
import Verif.Model.Tree
/-! # `split_sourcenode` and the edits of `ReplaceSource::node` in terms of leaves -/

namespace WS
open Spec

/-- `splitSm` on the list of leaves. -/
def splitLeaves : List (Str × Option Origin) → Int →
    Except Int (List (Str × Option Origin) × List (Str × Option Origin))
  | [], pos => .error pos
  | (s, o) :: rest, pos =>
    match splitChars s pos with
    | .ok (a, b) => .ok ([(a, o)], (b, o) :: rest)
    | .error p =>
      match splitLeaves rest p with
      | .ok (l, r) => .ok ((s, o) :: l, r)
      | .error q => .error q

theorem splitLeaves_append : ∀ (A B : List (Str × Option Origin)) (pos : Int),
    splitLeaves (A ++ B) pos =
      match splitLeaves A pos with
      | .ok (l, r) => .ok (l, r ++ B)
      | .error p =>
        match splitLeaves B p with
        | .ok (l, r) => .ok (A ++ l, r)
        | .error q => .error q
  | [], B, pos => by
    simp only [List.nil_append, splitLeaves]
    rcases splitLeaves B pos with q | ⟨l, r⟩ <;> rfl
  | (s, o) :: A, B, pos => by
    rw [List.cons_append, splitLeaves, splitLeaves]
    cases splitChars s pos with
    | ok ab => simp
    | error p =>
      simp only
      rw [splitLeaves_append A B p]
      rcases splitLeaves A p with q | ⟨l, r⟩
      · simp only
        rcases splitLeaves B q with q' | ⟨l, r⟩ <;> simp
      · simp

/-- What `splitSm`/`splitSmList` must return for the given split of the leaves. -/
def SplitOk (o : Option Origin) (x : SmNode) (pos : Int) : Prop :=
  match splitSm x pos with
  | .ok (l, r) => splitLeaves (SmNode.leavesList o [x]) pos =
      .ok (SmNode.leavesList o [l], SmNode.leavesList o [r])
  | .error (q, x') => x' = x ∧ splitLeaves (SmNode.leavesList o [x]) pos = .error q

theorem leavesList_single_node (o : Option Origin) (p : Option (Nat × Nat)) (src n : Option Int)
    (c : List (Int × Int)) (ch : List SmNode) :
    SmNode.leavesList o [.node p src n c ch] = SmNode.leavesList (originOf p src n) ch := by
  simp [SmNode.leavesList, SmNode.leaves]

theorem leavesList_cons (o : Option Origin) (x : SmNode) (xs : List SmNode) :
    SmNode.leavesList o (x :: xs) = SmNode.leavesList o [x] ++ SmNode.leavesList o xs := by
  cases x <;> simp [SmNode.leavesList]

mutual
  theorem splitSm_ok (o : Option Origin) : ∀ (x : SmNode) (pos : Int), SplitOk o x pos
    | .str s, pos => by
      unfold SplitOk
      rw [splitSm]
      simp only [SmNode.leavesList, splitLeaves]
      cases splitChars s pos with
      | ok ab => rfl
      | error p => exact ⟨rfl, rfl⟩
    | .node p src n c ch, pos => by
      unfold SplitOk
      rw [splitSm, leavesList_single_node]
      have h := splitSmList_ok (originOf p src n) ch pos
      revert h
      rcases splitSmList ch pos with ⟨q, ls⟩ | ⟨ls, rs⟩
      · intro h; exact ⟨by rw [h.1], h.2⟩
      · intro h; simp only [leavesList_single_node]; exact h
  theorem splitSmList_ok (o : Option Origin) : ∀ (xs : List SmNode) (pos : Int),
      match splitSmList xs pos with
      | .ok (ls, rs) => splitLeaves (SmNode.leavesList o xs) pos =
          .ok (SmNode.leavesList o ls, SmNode.leavesList o rs)
      | .error (q, ls) => ls = xs ∧ splitLeaves (SmNode.leavesList o xs) pos = .error q
    | [], pos => by simp [splitSmList, SmNode.leavesList, splitLeaves]
    | x :: xs, pos => by
      have h := splitSm_ok o x pos
      unfold SplitOk at h
      rw [splitSmList, leavesList_cons, splitLeaves_append]
      revert h
      rcases splitSm x pos with ⟨p, x'⟩ | ⟨l, r⟩
      · rintro ⟨h1, h2⟩
        rw [h2]
        simp only
        have h' := splitSmList_ok o xs p
        revert h'
        rcases splitSmList xs p with ⟨q, ls⟩ | ⟨ls, rs⟩
        · rintro ⟨k1, k2⟩
          simp only [k2]
          exact ⟨by rw [h1, k1], trivial⟩
        · intro k
          simp only [k]
          rw [leavesList_cons o x' ls, h1]
      · intro h2
        rw [h2]
        simp only
        rw [leavesList_cons o r xs]
end

/-- A root in the sense of the code: not a bare string. -/
def SmNode.IsNode : SmNode → Prop
  | .str _ => False
  | .node .. => True

theorem leaves_of_isNode {n : SmNode} (h : n.IsNode) (o : Option Origin) :
    SmNode.leavesList o [n] = n.leaves := by
  cases n with
  | str s => cases h
  | node p s nm c ch => rw [leavesList_single_node, SmNode.leaves]

theorem splitSm_leaves {n : SmNode} (hn : n.IsNode) (pos : Int) :
    match splitSm n pos with
    | .ok (l, r) => l.IsNode ∧ r.IsNode ∧ splitLeaves n.leaves pos = .ok (l.leaves, r.leaves)
    | .error (q, n') => n' = n ∧ splitLeaves n.leaves pos = .error q := by
  have h := splitSm_ok none n pos
  unfold SplitOk at h
  rw [leaves_of_isNode hn] at h
  cases n with
  | str s => cases hn
  | node p src nm c ch =>
    rw [splitSm] at h ⊢
    revert h
    rcases splitSmList ch pos with ⟨q, ls⟩ | ⟨ls, rs⟩
    · exact id
    · intro h
      refine ⟨trivial, trivial, ?_⟩
      simp only at h
      rw [h, leavesList_single_node, leavesList_single_node, SmNode.leaves, SmNode.leaves]

theorem splitChars_marks (s : Str) (pos : Int) :
    match splitChars s pos with
    | .ok (a, b) => a ++ b = s ∧ a.length = pos.toNat
    | .error q => q = pos - s.length ∧ 0 < q := by
  unfold splitChars
  by_cases h : pos ≤ 0
  · rw [if_pos h]; simp; omega
  · rw [if_neg h]
    by_cases h' : pos.toNat ≤ s.length
    · rw [if_pos h']; simp; omega
    · rw [if_neg h']; simp only [true_and]; omega

theorem marked_cons (l : Str × Option Origin) (ls : List (Str × Option Origin)) :
    marked (l :: ls) = mark l.2 l.1 ++ marked ls := by
  simp [marked, mark, List.flatMap_cons]

theorem splitLeaves_marks : ∀ (L : List (Str × Option Origin)) (pos : Int),
    match splitLeaves L pos with
    | .ok (l, r) => marked l ++ marked r = marked L ∧ (marked l).length = pos.toNat
    | .error q => q = pos - (marked L).length ∧ (0 < q ∨ L = [])
  | [], pos => by simp [splitLeaves, marked]
  | (s, o) :: rest, pos => by
    rw [splitLeaves, marked_cons]
    have h := splitChars_marks s pos
    revert h
    rcases splitChars s pos with p | ⟨a, b⟩
    · rintro ⟨rfl, h2⟩
      have k := splitLeaves_marks rest (pos - s.length)
      revert k
      simp only
      rcases splitLeaves rest (pos - s.length) with q | ⟨l, r⟩
      · rintro ⟨rfl, k2⟩
        simp only [List.length_append, mark, List.length_map]
        refine ⟨by omega, .inl ?_⟩
        rcases k2 with k2 | k2
        · exact k2
        · subst k2; simp only [marked, List.flatMap_nil, List.length_nil]; omega
      · rintro ⟨k1, k2⟩
        simp only
        rw [marked_cons, List.append_assoc, k1]
        refine ⟨rfl, ?_⟩
        simp only [List.length_append, mark, List.length_map, k2]
        omega
    · rintro ⟨h1, h2⟩
      simp only
      rw [marked_cons, marked_cons]
      simp only [marked, List.flatMap_nil, List.append_nil]
      rw [← List.append_assoc]
      refine ⟨?_, by simpa [mark] using h2⟩
      rw [← h1]
      simp [mark]

end WS
