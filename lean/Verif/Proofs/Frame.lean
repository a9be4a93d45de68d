import Verif.Proofs.Reads
/-! # Changing an object does not affect what does not contain it -/

namespace WS
open Spec

theorem AbsObj.children_eq {a : AObj} {o : Obj} (h : AbsObj a o) : o.children = a.children := by
  cases h <;> rfl

theorem contains_of_child {A : AHeap} {h : Heap} (H : Abs A h) {i j : Nat} {a : AObj} {c : Src}
    (ha : A[j]? = some a) (hc : c ∈ a.children) (hi : Contains h i c) : Contains h i (.ref j) := by
  obtain ⟨o, ho, hao⟩ := H.getSome ha
  exact .step ho (by rw [hao.children_eq]; exact hc) hi

theorem child_of_contains {A : AHeap} {h : Heap} (H : Abs A h) {i j : Nat}
    (hc : Contains h i (.ref j)) : j = i ∨ ∃ a c, A[j]? = some a ∧ c ∈ a.children ∧ Contains h i c := by
  cases hc with
  | self => exact .inl rfl
  | @step _ o c ho hc hi =>
    have hj : j < A.length := by rw [H.1]; exact (List.getElem?_eq_some_iff.1 ho).1
    obtain ⟨a, ha⟩ : ∃ a, A[j]? = some a := ⟨A[j], List.getElem?_eq_getElem hj⟩
    have := H.2 j a o ha ho
    exact .inr ⟨a, c, ha, by rw [← this.children_eq]; exact hc, hi⟩

/-- Only object `i` differs. -/
def SameBut (i : Nat) (A B : AHeap) : Prop := A.length = B.length ∧ ∀ j, j ≠ i → A[j]? = B[j]?

theorem SameBut.set (i : Nat) (A : AHeap) (a : AObj) : SameBut i A (A.set i a) := by
  refine ⟨by simp, fun j hj => ?_⟩
  rw [List.getElem?_set_ne (Ne.symm hj)]

theorem SameBut.symm {i : Nat} {A B : AHeap} (h : SameBut i A B) : SameBut i B A :=
  ⟨h.1.symm, fun j hj => (h.2 j hj).symm⟩

/-- Reading something that does not contain `i` does not depend on `i`. -/
theorem Unfolds.frame {A B : AHeap} {h : Heap} (H : Abs A h) {i : Nat} (S : SameBut i A B)
    {src : Src} {t : Tree} (u : Unfolds A src t) (hc : ¬ Contains h i src) : Unfolds B src t := by
  have ne : ∀ j, ¬ Contains h i (.ref j) → j ≠ i := by
    rintro j hj rfl; exact hj .self
  induction u with
  | str s => exact .str s
  | raw e => exact .raw (by rw [← S.2 _ (ne _ hc)]; exact e)
  | original e => exact .original (by rw [← S.2 _ (ne _ hc)]; exact e)
  | l2l e => exact .l2l (by rw [← S.2 _ (ne _ hc)]; exact e)
  | sms e => exact .sms (by rw [← S.2 _ (ne _ hc)]; exact e)
  | prefixed e _ ih =>
    exact .prefixed (by rw [← S.2 _ (ne _ hc)]; exact e)
      (ih fun hi => hc (contains_of_child H e (by simp [AObj.children]) hi))
  | replace e _ ih =>
    exact .replace (by rw [← S.2 _ (ne _ hc)]; exact e)
      (ih fun hi => hc (contains_of_child H e (by simp [AObj.children]) hi))
  | @concat j cs ts e hl hk ih =>
    refine .concat (by rw [← S.2 _ (ne _ hc)]; exact e) hl (fun k c t hkc hkt => ?_)
    exact ih k c t hkc hkt
      (fun hi => hc (contains_of_child H e (List.mem_of_getElem? hkc) hi))

theorem contains_iff_of_sameBut {A B : AHeap} {h g : Heap} (HA : Abs A h) (HB : Abs B g) {i : Nat}
    (S : SameBut i A B) {src : Src} (hc : Contains h i src) : Contains g i src := by
  induction hc with
  | self => exact .self
  | @step j o c ho hc _ ih =>
    by_cases hj : j = i
    · subst hj; exact .self
    · have hl : j < A.length := by rw [HA.1]; exact (List.getElem?_eq_some_iff.1 ho).1
      obtain ⟨a, ha⟩ : ∃ a, A[j]? = some a := ⟨A[j], List.getElem?_eq_getElem hl⟩
      have hao := HA.2 j a o ha ho
      exact contains_of_child HB (by rw [← S.2 j hj]; exact ha) (by rw [← hao.children_eq]; exact hc) ih

/-- Objects that read do not contain themselves properly. -/
theorem depth_of_contains {A : AHeap} {h : Heap} (H : Abs A h) {i : Nat} {src : Src} {t : Tree}
    (u : Unfolds A src t) (hc : Contains h i src) :
    ∃ t', Unfolds A (.ref i) t' ∧ t'.depth ≤ t.depth := by
  induction hc generalizing t with
  | self => exact ⟨t, u, Nat.le_refl _⟩
  | @step j o c ho hc _ ih =>
    have hl : j < A.length := by rw [H.1]; exact (List.getElem?_eq_some_iff.1 ho).1
    obtain ⟨a, ha⟩ : ∃ a, A[j]? = some a := ⟨A[j], List.getElem?_eq_getElem hl⟩
    have hao := H.2 j a o ha ho
    rw [hao.children_eq] at hc
    cases u with
    | raw e => rw [ha] at e; cases e; simp [AObj.children] at hc
    | original e => rw [ha] at e; cases e; simp [AObj.children] at hc
    | l2l e => rw [ha] at e; cases e; simp [AObj.children] at hc
    | sms e => rw [ha] at e; cases e; simp [AObj.children] at hc
    | prefixed e u =>
      rw [ha] at e; cases e; simp [AObj.children] at hc; subst hc
      obtain ⟨t', h1, h2⟩ := ih u
      exact ⟨t', h1, by simp only [Tree.depth]; omega⟩
    | replace e u =>
      rw [ha] at e; cases e; simp [AObj.children] at hc; subst hc
      obtain ⟨t', h1, h2⟩ := ih u
      exact ⟨t', h1, by simp only [Tree.depth]; omega⟩
    | @concat _ cs ts e hl hk =>
      rw [ha] at e; cases e
      replace hc : c ∈ cs := hc
      obtain ⟨k, hk'⟩ := List.mem_iff_getElem?.1 hc
      have hlt := (List.getElem?_eq_some_iff.1 hk').1
      have hkt : ts[k]? = some (ts[k]'(by omega)) := List.getElem?_eq_getElem (by omega)
      obtain ⟨t', h1, h2⟩ := ih (hk k c _ hk' hkt)
      have := Tree.depth_le_depths hkt
      exact ⟨t', h1, by simp only [Tree.depth]; omega⟩

theorem not_contains_child {A : AHeap} {h : Heap} (H : Abs A h) {i : Nat} {t : Tree} {cs : List Src}
    (u : Unfolds A (.ref i) t) (e : A[i]? = some (.concat cs)) : ∀ c ∈ cs, ¬ Contains h i c := by
  intro c hc hi
  cases u with
  | @concat _ cs ts e' hl hk =>
    rw [e] at e'; cases e'
    obtain ⟨k, hk'⟩ := List.mem_iff_getElem?.1 hc
    have hlt := (List.getElem?_eq_some_iff.1 hk').1
    have hkt : ts[k]? = some (ts[k]'(by omega)) := List.getElem?_eq_getElem (by omega)
    obtain ⟨t', h1, h2⟩ := depth_of_contains H (hk k c _ hk' hkt) hi
    have := Tree.depth_le_depths hkt
    have h3 := h1.unique (.concat e hl hk)
    subst h3
    simp only [Tree.depth] at h2; omega
  | raw e' => rw [e] at e'; cases e'
  | original e' => rw [e] at e'; cases e'
  | l2l e' => rw [e] at e'; cases e'
  | sms e' => rw [e] at e'; cases e'
  | prefixed e' => rw [e] at e'; cases e'
  | replace e' => rw [e] at e'; cases e'

end WS
