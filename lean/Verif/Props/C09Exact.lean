import Verif.Proofs.Ghosts
/-! # C09 Exactly which trees get a right column-level map -/

namespace WS
open Spec

theorem notAfter_self (o : Option Origin) : NotAfter o o := (mapAt_le (0, 0) o o).1 (Mapping.le_refl _)

/-- Trees in which no empty string has an origin are fine. -/
theorem overruled_of_full : ∀ (L : List (Str × Option Origin)) (cur : Option Origin)
    (here : List (Option Origin)), (∀ p ∈ here, p = none) → (∀ l ∈ L, l.1 = [] → l.2 = none) →
    Overruled cur here L
  | [], _, _, _, _ => trivial
  | (t, o) :: L, cur, here, hh, hL => by
    have ih := fun cur here hh => overruled_of_full L cur here hh (fun l hl => hL l (by simp [hl]))
    unfold Overruled
    split
    · rename_i ht
      have ho : o = none := hL (t, o) (by simp) ht
      subst ho
      apply ih
      intro p hp
      split at hp
      · exact hh p hp
      · rcases List.mem_cons.1 hp with rfl | hp
        · rfl
        · exact hh p hp
    · refine ⟨?_, ih _ _ (by simp)⟩
      intro p hp
      split at hp
      · rw [hh p hp]; trivial
      · rcases List.mem_cons.1 hp with rfl | hp
        · exact notAfter_self _
        · rw [hh p hp]; trivial

/-- So are trees whose strings all have origins and come in the order of the map. -/
theorem overruled_of_ascending : ∀ (L : List (Str × Option Origin)) (cur : Option Origin)
    (here : List (Option Origin)), (∀ p ∈ here, ∀ l ∈ L, NotAfter p l.2) →
    L.Pairwise (fun a b => NotAfter a.2 b.2) → Overruled cur here L
  | [], _, _, _, _ => trivial
  | (t, o) :: L, cur, here, hh, hL => by
    rw [List.pairwise_cons] at hL
    have ih := fun cur here hh => overruled_of_ascending L cur here hh hL.2
    unfold Overruled
    split
    · apply ih
      intro p hp l hl
      split at hp
      · exact hh p hp l (by simp [hl])
      · rcases List.mem_cons.1 hp with rfl | hp
        · exact hL.1 l hl
        · exact hh p hp l (by simp [hl])
    · refine ⟨?_, ih _ _ (by simp)⟩
      intro p hp
      split at hp
      · exact hh p hp (t, o) (by simp)
      · rcases List.mem_cons.1 hp with rfl | hp
        · exact notAfter_self _
        · exact hh p hp (t, o) (by simp)

/-- C09, for all trees with original lines from 1 on: the map can be written, and it attributes every
character to the origin of the string it came from exactly if every character comes after (in the order
of maps) all origins announced at its place by empty strings. -/
theorem C09_exact (n : SmNode) (file : Option Int) (root : Option Str)
    (hl : ∀ l ∈ n.leaves, LineOk l) :
    ∃ r ps, n.toStringWithSourceMap file root = .ok r ∧ mapPoints r.map = some ps ∧ r.source = n.text ∧
      ps.Pairwise Point.Le ∧ (Attributes ps n.marks ↔ Overruled none [] n.leaves) := by
  have h := SmNode.walk_ok n (c := WalkCtx.new file root)
    ⟨Generator.new_ok _ _ _, fun _ => List.Pairwise.nil, rfl, Nat.le_refl _⟩ hl
  have hsorted : (n.walk (WalkCtx.new file root)).map.mappings.sort.list.Pairwise
      (fun a b => Mapping.le a b = true) := by
    rw [MappingList.sort_list h.truthful]; exact sortBy_sorted _
  obtain ⟨m, e, _, _, _, hp⟩ := Generator.toSourceMap_ok h.ok hsorted
  have hcore : (n.walk (WalkCtx.new file root)).map.mappings = (Core.new.walk n.leaves).mappings :=
    congrArg Core.mappings (SmNode.walk_core n (WalkCtx.new file root))
  have he : n.toStringWithSourceMap file root = .ok ⟨(n.walk (WalkCtx.new file root)).code, m⟩ := by
    unfold SmNode.toStringWithSourceMap
    dsimp only
    rw [e]
  refine ⟨_, _, he, hp, C09_text n file root _ he, sorted_points hsorted, ?_⟩
  rw [hcore] at hsorted ⊢
  have hperm := (Core.new.walk n.leaves).mappings.sort_perm
  constructor
  · intro ha
    obtain ⟨cur, here, hi⟩ := CoreInv.walk (G := False) n.leaves (CoreInv.new False) (fun f => f.elim)
    refine not_overruled hsorted (fun x hx => hi.shape x (hperm.mem_iff.1 hx)) n.leaves
      (CoreInv.new False) (fun x hx => hperm.mem_iff.2 hx) ?_
    simpa [SmNode.marks] using ha
  · intro ho
    obtain ⟨cur, here, hi⟩ := CoreInv.walk (G := True) n.leaves (CoreInv.new True) (fun _ => ho)
    intro k c o hk
    rw [← hi.attr k c o (by simpa [SmNode.marks] using hk)]
    have hm : ([] : Marked) ++ marked n.leaves = n.marks := rfl
    rw [hm]
    refine lookup_sorted hperm hsorted hi.mono hi.shape (hi.topped trivial) ?_
    rw [hi.gen, hm]
    have e2 : n.marks.map Prod.fst = (n.marks.take k).map Prod.fst ++ (n.marks.drop k).map Prod.fst := by
      rw [← List.map_append, List.take_append_drop]
    rw [e2]
    unfold posAfter
    rw [posFrom_append]
    apply posFrom_lt
    intro hnil
    have hlen := congrArg List.length hnil
    obtain ⟨hk', _⟩ := List.getElem?_eq_some_iff.1 hk
    simp at hlen
    omega

/-- The trees of `C09_attribution_partial` are among them. -/
theorem overruled_of_leafOk {L : List (Str × Option Origin)} (h : ∀ l ∈ L, LeafOk l) :
    Overruled none [] L :=
  overruled_of_full L none [] (by simp) fun l hl he => by
    cases ho : l.2 with
    | none => rfl
    | some o => exact absurd he (h l hl o ho).1

/-! Non-trivial cases: an empty string whose origin comes before that of the character after it does
no harm, one before unattributed text does. -/

/-- Two pieces of file 1, an empty string with an origin between them. -/
def C09_deleted : SmNode :=
  .node none none none []
    [.node (some (1, 0)) (some 1) none [] [.str "a;".toList],
     .node (some (1, 2)) (some 1) none [] [.str []],
     .node (some (1, 5)) (some 1) none [] [.str "c;\n".toList], .str "end".toList]

example : ∀ l ∈ C09_deleted.leaves, LineOk l := by
  intro l hl o ho
  simp only [C09_deleted, SmNode.leaves, SmNode.leavesList, originOf, List.append_assoc, List.mem_append,
    List.mem_cons, List.not_mem_nil, or_false] at hl
  rcases hl with rfl | rfl | rfl | rfl <;> cases ho <;> simp
example : Overruled none [] C09_deleted.leaves := by decide
example : ¬ ∀ l ∈ C09_deleted.leaves, LeafOk l := by decide
example : ¬ Overruled none [] C09_bad.leaves := by decide

end WS
