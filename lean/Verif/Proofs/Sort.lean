import Verif.Model.Mapping
import Verif.Model.Sources
/-! # Facts about the sorting stand-in -/

namespace WS

variable {α : Type _} {le : α → α → Bool}

theorem insertBy_perm (a : α) (l : List α) : (insertBy le a l).Perm (a :: l) := by
  induction l with
  | nil => exact List.Perm.refl _
  | cons b l ih =>
    simp only [insertBy]
    split
    · exact List.Perm.refl _
    · exact (ih.cons b).trans (List.Perm.swap a b l)

theorem sortBy_perm (l : List α) : (sortBy le l).Perm l := by
  induction l with
  | nil => exact List.Perm.refl _
  | cons a l ih => exact (insertBy_perm a _).trans (ih.cons a)

theorem insertBy_pairwise (total : ∀ a b, le a b = true ∨ le b a = true)
    (trans : ∀ a b c, le a b = true → le b c = true → le a c = true) (a : α) :
    ∀ l : List α, l.Pairwise (fun x y => le x y = true) →
      (insertBy le a l).Pairwise (fun x y => le x y = true)
  | [], _ => by simp [insertBy]
  | b :: l, h => by
    rw [List.pairwise_cons] at h
    simp only [insertBy]
    split
    · rename_i hab
      rw [List.pairwise_cons]
      refine ⟨?_, List.pairwise_cons.2 h⟩
      intro x hx
      rcases List.mem_cons.1 hx with rfl | hx
      · exact hab
      · exact trans _ _ _ hab (h.1 x hx)
    · rename_i hab
      rw [List.pairwise_cons]
      refine ⟨?_, insertBy_pairwise total trans a l h.2⟩
      intro x hx
      have hx := (insertBy_perm (le := le) a l).mem_iff.1 hx
      rcases List.mem_cons.1 hx with rfl | hx
      · rcases total x b with h' | h'
        · exact absurd h' hab
        · exact h'
      · exact h.1 x hx

theorem sortBy_pairwise (total : ∀ a b, le a b = true ∨ le b a = true)
    (trans : ∀ a b c, le a b = true → le b c = true → le a c = true) (l : List α) :
    (sortBy le l).Pairwise (fun x y => le x y = true) := by
  induction l with
  | nil => exact List.Pairwise.nil
  | cons a l ih => exact insertBy_pairwise total trans a _ ih

theorem insertBy_of_le (a : α) (l : List α) (h : ∀ x ∈ l, le a x = true) :
    insertBy le a l = a :: l := by
  cases l with
  | nil => rfl
  | cons b l => simp [insertBy, h b (by simp)]

theorem sortBy_of_pairwise (l : List α) (h : l.Pairwise (fun x y => le x y = true)) :
    sortBy le l = l := by
  induction l with
  | nil => rfl
  | cons a l ih =>
    rw [List.pairwise_cons] at h
    rw [sortBy, ih h.2, insertBy_of_le a l h.1]

/-- Two ordered permutations are equal when `le` is antisymmetric on their elements. -/
theorem pairwise_perm_eq : ∀ {l₁ l₂ : List α},
    l₁.Pairwise (fun x y => le x y = true) → l₂.Pairwise (fun x y => le x y = true) →
    l₁.Perm l₂ → (∀ x ∈ l₁, ∀ y ∈ l₁, le x y = true → le y x = true → x = y) → l₁ = l₂
  | [], l₂, _, _, p, _ => p.nil_eq
  | a :: l₁, [], _, _, p, _ => p.eq_nil
  | a :: l₁, b :: l₂, h₁, h₂, p, anti => by
    rw [List.pairwise_cons] at h₁ h₂
    have hab : a = b := by
      have ha : a ∈ b :: l₂ := p.mem_iff.1 (by simp)
      have hb : b ∈ a :: l₁ := p.mem_iff.2 (by simp)
      rcases List.mem_cons.1 ha with h | h
      · exact h
      · rcases List.mem_cons.1 hb with h' | h'
        · exact h'.symm
        · exact anti a (by simp) b (by simp [h']) (h₁.1 b h') (h₂.1 a h)
    subst hab
    rw [pairwise_perm_eq h₁.2 h₂.2 (List.Perm.cons_inv p)
      (fun x hx y hy => anti x (by simp [hx]) y (by simp [hy]))]

/-- Sorting permutations of a list gives the same result when `le` is antisymmetric on it. -/
theorem sortBy_perm_eq (total : ∀ a b, le a b = true ∨ le b a = true)
    (trans : ∀ a b c, le a b = true → le b c = true → le a c = true) {l₁ l₂ : List α}
    (p : l₁.Perm l₂) (anti : ∀ x ∈ l₁, ∀ y ∈ l₁, le x y = true → le y x = true → x = y) :
    sortBy le l₁ = sortBy le l₂ :=
  pairwise_perm_eq (sortBy_pairwise total trans _) (sortBy_pairwise total trans _)
    ((sortBy_perm l₁).trans (p.trans (sortBy_perm l₂).symm))
    (fun x hx y hy => anti x ((sortBy_perm l₁).mem_iff.1 hx) y ((sortBy_perm l₁).mem_iff.1 hy))

/-! ## The order on mappings -/

theorem cmpPair_eq (a b : Nat × Nat) : cmpPair a b =
    if a.1 < b.1 then .lt else if b.1 < a.1 then .gt else compare a.2 b.2 := by
  unfold cmpPair
  split <;> rename_i h
  · rw [Nat.compare_eq_lt.2 h]; rfl
  · split <;> rename_i h'
    · rw [Nat.compare_eq_gt.2 h']; rfl
    · rw [Nat.compare_eq_eq.2 (by omega)]; rfl

theorem cmpPair_iff_le (a b : Nat × Nat) :
    (cmpPair a b).isLE = true ↔ a.1 < b.1 ∨ (a.1 = b.1 ∧ a.2 ≤ b.2) := by
  rw [cmpPair_eq]
  split
  · simp_all
  · split
    · simp; omega
    · simp [Nat.isLE_compare]; omega

theorem cmpPair_eq_eq (a b : Nat × Nat) : cmpPair a b = .eq ↔ a = b := by
  rw [cmpPair_eq]
  rcases a with ⟨a, a'⟩; rcases b with ⟨b, b'⟩
  simp only [Prod.mk.injEq]
  split
  · simp; omega
  · split
    · simp; omega
    · rw [Nat.compare_eq_eq]; omega

instance : Std.TransCmp cmpPair := by
  have : cmpPair = compareLex (compareOn Prod.fst) (compareOn Prod.snd) := rfl
  rw [this]; infer_instance

instance : Std.LawfulEqCmp cmpPair where
  eq_of_compare {a b} h := (cmpPair_eq_eq a b).1 h
  compare_self {a} := (cmpPair_eq_eq a a).2 rfl

theorem cmpOpt_swap {β : Type _} {cmp : β → β → Ordering} [Std.OrientedCmp cmp]
    (a b : Option β) : cmpOpt cmp a b = (cmpOpt cmp b a).swap := by
  cases a <;> cases b <;> simp [cmpOpt]
  exact Std.OrientedCmp.eq_swap

instance {β : Type _} {cmp : β → β → Ordering} [Std.TransCmp cmp] : Std.TransCmp (cmpOpt cmp) where
  eq_swap {a b} := cmpOpt_swap a b
  isLE_trans {a b c} h₁ h₂ := by
    cases a <;> cases b <;> cases c <;> simp_all [cmpOpt]
    exact Std.TransCmp.isLE_trans h₁ h₂

instance {β : Type _} {cmp : β → β → Ordering} [Std.LawfulEqCmp cmp] :
    Std.LawfulEqCmp (cmpOpt cmp) where
  eq_of_compare {a b} h := by
    cases a <;> cases b <;> simp_all [cmpOpt]
  compare_self {a} := by
    cases a <;> simp [cmpOpt]

theorem Mapping.cmp_lex : Mapping.cmp =
    compareLex (fun a b => cmpPair a.generated b.generated)
      (compareLex (fun a b => cmpOpt compare a.source b.source)
        (compareLex (fun a b => cmpOpt cmpPair a.original b.original)
          (fun a b => cmpOpt compare a.name b.name))) := rfl

/-- Pulling a comparison back along a function. -/
theorem transCmp_pull {β γ : Type _} (f : β → γ) {cmp : γ → γ → Ordering} [Std.TransCmp cmp] :
    Std.TransCmp (fun a b => cmp (f a) (f b)) where
  eq_swap := Std.OrientedCmp.eq_swap (cmp := cmp)
  isLE_trans h₁ h₂ := Std.TransCmp.isLE_trans (cmp := cmp) h₁ h₂

instance : Std.TransCmp Mapping.cmp := by
  rw [Mapping.cmp_lex]
  have := transCmp_pull Mapping.generated (cmp := cmpPair)
  have := transCmp_pull Mapping.source (cmp := cmpOpt (compare : Int → Int → Ordering))
  have := transCmp_pull Mapping.original (cmp := cmpOpt cmpPair)
  have := transCmp_pull Mapping.name (cmp := cmpOpt (compare : Int → Int → Ordering))
  infer_instance

theorem Mapping.cmp_eq_eq (a b : Mapping) (h : Mapping.cmp a b = .eq) : a = b := by
  simp only [Mapping.cmp, Ordering.then_eq_eq] at h
  obtain ⟨h₁, h₂, h₃, h₄⟩ := h
  have h₁ := Std.LawfulEqCmp.eq_of_compare h₁
  have h₂ := Std.LawfulEqCmp.eq_of_compare h₂
  have h₃ := Std.LawfulEqCmp.eq_of_compare h₃
  have h₄ := Std.LawfulEqCmp.eq_of_compare h₄
  cases a; cases b; simp_all

theorem Mapping.le_total (a b : Mapping) : Mapping.le a b = true ∨ Mapping.le b a = true := by
  unfold Mapping.le
  rw [Std.OrientedCmp.eq_swap (cmp := Mapping.cmp) (a := b)]
  cases Mapping.cmp a b <;> simp

theorem Mapping.le_trans (a b c : Mapping) (h₁ : Mapping.le a b = true)
    (h₂ : Mapping.le b c = true) : Mapping.le a c = true :=
  Std.TransCmp.isLE_trans (cmp := Mapping.cmp) h₁ h₂

theorem Mapping.le_antisymm (a b : Mapping) (h₁ : Mapping.le a b = true)
    (h₂ : Mapping.le b a = true) : a = b := by
  apply Mapping.cmp_eq_eq
  unfold Mapping.le at h₁ h₂
  rw [Std.OrientedCmp.eq_swap (cmp := Mapping.cmp) (a := b)] at h₂
  cases h : Mapping.cmp a b <;> simp_all

theorem Mapping.le_refl (a : Mapping) : Mapping.le a a = true := by
  rcases Mapping.le_total a a with h | h <;> exact h

/-- `≤` on mappings respects generated positions. -/
theorem Mapping.le_generated {a b : Mapping} (h : Mapping.le a b = true) :
    a.generated.1 < b.generated.1 ∨
      (a.generated.1 = b.generated.1 ∧ a.generated.2 ≤ b.generated.2) := by
  rw [← cmpPair_iff_le]
  unfold Mapping.le Mapping.cmp at h
  cases h' : cmpPair a.generated b.generated <;> simp_all [Ordering.then]

theorem Mapping.le_of_generated_lt {a b : Mapping} (h : a.generated.1 < b.generated.1 ∨
      (a.generated.1 = b.generated.1 ∧ a.generated.2 < b.generated.2)) : Mapping.le a b = true := by
  have : cmpPair a.generated b.generated = .lt := by
    rw [cmpPair_eq]
    split
    · rfl
    · split
      · omega
      · rw [Nat.compare_eq_lt]; omega
  simp [Mapping.le, Mapping.cmp, this]

/-! ## The order on replacements -/

theorem Repl.le_iff (a b : Repl) : Repl.le a b = true ↔
    b.e < a.e ∨ (a.e = b.e ∧ (b.s < a.s ∨ (a.s = b.s ∧ b.idx ≤ a.idx))) := by
  unfold Repl.le Repl.cmp
  split
  · rw [Int.isLE_compare]; omega
  · split
    · rw [Int.isLE_compare]; omega
    · rw [Nat.isLE_compare]; omega

theorem Repl.le_total (a b : Repl) : Repl.le a b = true ∨ Repl.le b a = true := by
  simp only [Repl.le_iff]; omega

theorem Repl.le_trans (a b c : Repl) (h₁ : Repl.le a b = true) (h₂ : Repl.le b c = true) :
    Repl.le a c = true := by
  simp only [Repl.le_iff] at *; omega

theorem Repl.idx_eq_of_le (a b : Repl) (h₁ : Repl.le a b = true) (h₂ : Repl.le b a = true) :
    a.s = b.s ∧ a.e = b.e ∧ a.idx = b.idx := by
  simp only [Repl.le_iff] at *; omega

end WS
