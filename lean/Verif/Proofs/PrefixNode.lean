import Verif.Proofs.SplitNode
import Verif.Proofs.Unfold
/-! # `PrefixSource::node` -/

namespace WS
open Spec

/-- `clone_and_prefix` on leaves. -/
def prefixLeaves (pre : Str) : List (Str × Option Origin) → Bool → List (Str × Option Origin)
  | [], _ => []
  | (s, o) :: rest, atStart => (makePrefixed s pre atStart, o) :: prefixLeaves pre rest (endsNl s)

/-- `append` after the leaves. -/
def prefixEnd : List (Str × Option Origin) → Bool → Bool
  | [], b => b
  | (s, _) :: rest, _ => prefixEnd rest (endsNl s)

theorem prefixLeaves_append (pre : Str) : ∀ (A B : List (Str × Option Origin)) (b : Bool),
    prefixLeaves pre (A ++ B) b = prefixLeaves pre A b ++ prefixLeaves pre B (prefixEnd A b)
  | [], B, b => rfl
  | (s, o) :: A, B, b => by
    simp only [List.cons_append, prefixLeaves, prefixEnd, prefixLeaves_append pre A B]

theorem prefixEnd_append : ∀ (A B : List (Str × Option Origin)) (b : Bool),
    prefixEnd (A ++ B) b = prefixEnd B (prefixEnd A b)
  | [], B, b => rfl
  | (s, o) :: A, B, b => by simp only [List.cons_append, prefixEnd, prefixEnd_append A B]

/-- The counter as the code keeps it. -/
def asInt (b : Bool) : Int := if b then 1 else 0

mutual
  theorem cloneAndPrefix_leaves (pre : Str) (o : Option Origin) : ∀ (n : SmNode) (b : Bool),
      SmNode.leavesList o [(cloneAndPrefix pre n (asInt b)).1] =
        prefixLeaves pre (SmNode.leavesList o [n]) b ∧
      (cloneAndPrefix pre n (asInt b)).2 = asInt (prefixEnd (SmNode.leavesList o [n]) b) ∧
      ((cloneAndPrefix pre n (asInt b)).1.IsNode ↔ n.IsNode)
    | .str s, b => by
      cases b <;> simp [cloneAndPrefix, asInt, SmNode.leavesList, prefixLeaves, prefixEnd, SmNode.IsNode]
    | .node p src nm c ch, b => by
      have h := cloneAndPrefixList_leaves pre (originOf p src nm) ch b
      simp only [cloneAndPrefix, leavesList_single_node]
      exact ⟨h.1, h.2, by simp [SmNode.IsNode]⟩
  theorem cloneAndPrefixList_leaves (pre : Str) (o : Option Origin) : ∀ (l : List SmNode) (b : Bool),
      SmNode.leavesList o (cloneAndPrefixList pre l (asInt b)).1 =
        prefixLeaves pre (SmNode.leavesList o l) b ∧
      (cloneAndPrefixList pre l (asInt b)).2 = asInt (prefixEnd (SmNode.leavesList o l) b)
    | [], b => by simp [cloneAndPrefixList, SmNode.leavesList, prefixLeaves, prefixEnd]
    | x :: xs, b => by
      have h := cloneAndPrefix_leaves pre o x b
      have h' := cloneAndPrefixList_leaves pre o xs (prefixEnd (SmNode.leavesList o [x]) b)
      simp only [cloneAndPrefixList]
      rw [h.2.1, leavesList_cons, leavesList_cons o x xs, h.1, h'.1, h'.2, prefixLeaves_append,
        prefixEnd_append]
      exact ⟨rfl, rfl⟩
end

/-- The leaves of `PrefixSource::node`. -/
theorem prefixNode_leaves (pre : Str) {n : SmNode} (hn : n.IsNode) :
    (prefixNode pre n).IsNode ∧ (prefixNode pre n).leaves = prefixLeaves pre n.leaves true := by
  refine ⟨trivial, ?_⟩
  have h := cloneAndPrefix_leaves pre none n true
  rw [leaves_of_isNode hn] at h
  unfold prefixNode SmNode.mkVec
  rw [SmNode.leaves]
  exact h.1

/-! ## Text -/

/-- The text of leaves. -/
def leavesText (L : List (Str × Option Origin)) : Str := (L.map Prod.fst).flatten

theorem indentRest_append (p : Str) : ∀ (s t : Str), Spec.indentRest p (s ++ t) =
    Spec.indentRest p s ++ (if endsNl s = true ∧ t ≠ [] then p else []) ++ Spec.indentRest p t := by
  intro s
  induction s with
  | nil => intro t; simp [Spec.indentRest, endsNl]
  | cons c s ih =>
    intro t
    simp only [List.cons_append, Spec.indentRest, ih]
    cases s with
    | nil =>
      by_cases hc : c = '\n' <;> by_cases ht : t = [] <;>
        simp [hc, ht, endsNl, Spec.indentRest]
    | cons d s =>
      have : endsNl (c :: d :: s) = endsNl (d :: s) := by simp [endsNl]
      rw [this]
      simp

/-- A trailing empty leaf after a newline. -/
def Trailing (L : List (Str × Option Origin)) : Prop :=
  endsNl (leavesText L) = true ∧ ∃ o, L.getLast? = some ([], o)

instance (L : List (Str × Option Origin)) : Decidable (Trailing L) := by
  unfold Trailing
  cases h : L.getLast? with
  | none => exact isFalse (fun h => by obtain ⟨_, _, h⟩ := h; cases h)
  | some x =>
    obtain ⟨s, o⟩ := x
    exact decidable_of_iff (endsNl (leavesText L) = true ∧ s = [])
      ⟨fun ⟨a, b⟩ => ⟨a, o, by rw [b]⟩, fun ⟨a, o', b⟩ => ⟨a, by cases b; rfl⟩⟩

theorem endsNl_append (s t : Str) (h : t ≠ []) : endsNl (s ++ t) = endsNl t := by
  unfold endsNl
  rw [List.getLast?_append]
  cases t with
  | nil => exact absurd rfl h
  | cons a t => simp [List.getLast?_cons]

theorem prefixLeaves_text (pre : Str) : ∀ (L : List (Str × Option Origin)) (b : Bool),
    leavesText (prefixLeaves pre L b) =
      (if b = true ∧ L ≠ [] then pre else []) ++ Spec.indentRest pre (leavesText L) ++
        (if Trailing L then pre else []) := by
  intro L
  induction L with
  | nil =>
    intro b
    have : ¬ Trailing [] := fun h => by obtain ⟨_, _, h⟩ := h; cases h
    simp [prefixLeaves, leavesText, Spec.indentRest, this]
  | cons a L ih =>
    obtain ⟨s, o⟩ := a
    intro b
    have h1 : leavesText (prefixLeaves pre ((s, o) :: L) b) =
        makePrefixed s pre b ++ leavesText (prefixLeaves pre L (endsNl s)) := by
      simp [prefixLeaves, leavesText]
    have h2 : leavesText ((s, o) :: L) = s ++ leavesText L := by simp [leavesText]
    rw [h1, ih, h2, indentRest_append, makePrefixed, prefixLoop_eq]
    simp only [ne_eq, reduceCtorEq, not_false_eq_true, and_true]
    have key : (if endsNl s = true ∧ L ≠ [] then pre else []) ++ indentRest pre (leavesText L) ++
          (if Trailing L then pre else []) =
        (if endsNl s = true ∧ leavesText L ≠ [] then pre else []) ++ indentRest pre (leavesText L) ++
          (if Trailing ((s, o) :: L) then pre else []) := by
      by_cases hL : L = []
      · subst hL
        have n1 : ¬ Trailing ([] : List (Str × Option Origin)) := fun h => by
          obtain ⟨_, _, h⟩ := h; cases h
        have n2 : ¬ Trailing [(s, o)] := by
          rintro ⟨k1, o', k2⟩
          simp at k2
          rw [k2.1] at k1
          simp [leavesText, endsNl] at k1
        simp [leavesText, n1, n2]
      · by_cases hT : leavesText L = []
        · have n1 : ¬ Trailing L := by
            rintro ⟨k1, _⟩
            rw [hT] at k1; simp [endsNl] at k1
          have n2 : Trailing ((s, o) :: L) ↔ endsNl s = true := by
            constructor
            · rintro ⟨k1, _⟩
              rw [h2, hT, List.append_nil] at k1; exact k1
            · intro k
              refine ⟨by rw [h2, hT, List.append_nil]; exact k, ?_⟩
              have hlast := List.getLast_mem hL
              have : (L.getLast hL).1 = [] := by
                have : ∀ x ∈ L, x.1 = [] := by
                  intro x hx
                  have := List.flatten_eq_nil_iff.1 hT x.1 (List.mem_map_of_mem hx)
                  exact this
                exact this _ hlast
              refine ⟨(L.getLast hL).2, ?_⟩
              rw [List.getLast?_cons, List.getLast?_eq_some_getLast hL]
              simp only [Option.getD_some]
              rw [← this]
          simp [hT, hL, n1, n2, Spec.indentRest]
        · have n2 : Trailing ((s, o) :: L) ↔ Trailing L := by
            unfold Trailing
            rw [h2, endsNl_append _ _ hT, List.getLast?_cons, List.getLast?_eq_some_getLast hL]
            rfl
          simp [hT, hL, n2]
    rw [List.append_assoc, List.append_assoc, ← List.append_assoc (indentRest pre s)] at *
    simp only [List.append_assoc] at key ⊢
    rw [key]

/-- The text of `PrefixSource::node`, exactly. -/
theorem prefixNode_text (pre : Str) {n : SmNode} (hn : n.IsNode) :
    (prefixNode pre n).text =
      if n.leaves = [] then [] else Spec.indent pre n.text ++ (if Trailing n.leaves then pre else []) := by
  unfold SmNode.text
  rw [(prefixNode_leaves pre hn).2]
  have := prefixLeaves_text pre n.leaves true
  unfold leavesText at this
  rw [this]
  by_cases h : n.leaves = []
  · have : ¬ Trailing n.leaves := by
      rw [h]; rintro ⟨_, _, h⟩; cases h
    rw [if_pos h, if_neg this, h]
    simp [Spec.indentRest]
  · simp [h, Spec.indent]

end WS
