import Verif.Proofs.Replace
/-! # Order of edits -/

namespace WS

open Spec in
/-- Edits listed left to right: each is a range, and ends before the next begins. -/
def LeftToRight (es : List Edit) : Prop :=
  (∀ e ∈ es, e.start ≤ e.stop) ∧ es.Pairwise (fun a b => a.stop ≤ b.start)

theorem splice_snoc (s : Str) (k : Nat) (es : List Spec.Edit) (e : Spec.Edit)
    (h1 : ∀ d ∈ es, d.start ≤ d.stop) (h2 : ∀ d ∈ es, d.stop ≤ e.start) :
    Spec.splice s k (es ++ [e]) =
      Spec.splice (s.take e.start.toNat) k es ++ e.text ++ s.drop e.stop.toNat := by
  induction es generalizing k with
  | nil => simp [Spec.splice]
  | cons d es ih =>
    have hd1 := h1 d (by simp)
    have hd2 := h2 d (by simp)
    have : min d.start.toNat e.start.toNat = d.start.toNat := by omega
    simp only [List.cons_append, Spec.splice]
    rw [ih _ (fun d hd => h1 d (by simp [hd])) (fun d hd => h2 d (by simp [hd]))]
    simp [List.take_take, this]

/-- Applying from right to left is splicing from left to right. -/
theorem applyRight_reverse (es : List Spec.Edit) (h : LeftToRight es) (s : Str) :
    Spec.applyRight s es.reverse = Spec.splice s 0 es := by
  obtain ⟨h1, h2⟩ := h
  induction es using snoc_induction generalizing s with
  | nil => simp [Spec.applyRight, Spec.splice]
  | snoc es e ih =>
    rw [List.pairwise_append] at h2
    have he := h1 e (by simp)
    have : min e.start.toNat e.stop.toNat = e.start.toNat := by omega
    rw [splice_snoc s 0 es e (fun d hd => h1 d (by simp [hd])) (fun d hd => h2.2.2 d hd e (by simp))]
    simp only [List.reverse_append, List.reverse_cons, List.reverse_nil, List.nil_append,
      List.cons_append, Spec.applyRight, List.take_take, this]
    rw [ih _ (fun d hd => h1 d (by simp [hd])) h2.1]

/-- Sorting the numbered calls gives the reverse of any increasing arrangement of them. -/
theorem sortedCalls_eq_reverse (cs : List Call) (es : List Repl) (hp : es.Perm (tag 0 cs))
    (ho : es.Pairwise (fun a b => Repl.le b a = true)) : sortedCalls cs = es.reverse := by
  apply pairwise_perm_eq (le := Repl.le) (sortBy_pairwise Repl.le_total Repl.le_trans _)
  · exact List.pairwise_reverse.2 ho
  · exact (sortBy_perm _).trans (hp.symm.trans (List.reverse_perm es).symm)
  · intro x hx y hy
    exact tag_antisymm x ((sortBy_perm _).mem_iff.1 hx) y ((sortBy_perm _).mem_iff.1 hy)

/-! ## Independence of the call order -/

section keys
variable {α κ : Type _} [DecidableEq κ] (key : α → κ) (lt : κ → κ → Prop)

/-- Two lists ordered by key with the same members of each key, in the same order, are equal. -/
theorem eq_of_key_filters (hirr : ∀ k, ¬ lt k k) (hasymm : ∀ a b, lt a b → ¬ lt b a) :
    ∀ (l₁ l₂ : List α), l₁.Pairwise (fun a b => lt (key a) (key b) ∨ key a = key b) →
      l₂.Pairwise (fun a b => lt (key a) (key b) ∨ key a = key b) →
      (∀ k, l₁.filter (fun a => decide (key a = k)) = l₂.filter (fun a => decide (key a = k))) →
      l₁ = l₂
  | [], [], _, _, _ => rfl
  | [], b :: l₂, _, _, h => by have := h (key b); simp at this
  | a :: l₁, [], _, _, h => by have := h (key a); simp at this
  | a :: l₁, b :: l₂, h₁, h₂, h => by
    rw [List.pairwise_cons] at h₁ h₂
    have hk : key a = key b := by
      have ha : a ∈ (b :: l₂).filter (fun x => decide (key x = key a)) := by
        rw [← h]; simp
      have hb : b ∈ (a :: l₁).filter (fun x => decide (key x = key b)) := by
        rw [h]; simp
      have ha := (List.mem_filter.1 ha).1
      have hb := (List.mem_filter.1 hb).1
      rcases List.mem_cons.1 ha with ha | ha
      · rw [ha]
      · rcases List.mem_cons.1 hb with hb | hb
        · rw [hb]
        · rcases h₁.1 b hb with h' | h'
          · rcases h₂.1 a ha with h'' | h''
            · exact absurd h'' (hasymm _ _ h')
            · exact h''.symm
          · exact h'
    have hab : a = b := by
      have := h (key a)
      rw [List.filter_cons_of_pos (by simp), List.filter_cons_of_pos (by simp [hk])] at this
      exact (List.cons.inj this).1
    subst hab
    congr 1
    apply eq_of_key_filters hirr hasymm l₁ l₂ h₁.2 h₂.2
    intro k
    have := h k
    by_cases hk : key a = k
    · rw [List.filter_cons_of_pos (by simp [hk]), List.filter_cons_of_pos (by simp [hk])] at this
      exact (List.cons.inj this).2
    · rwa [List.filter_cons_of_neg (by simp [hk]), List.filter_cons_of_neg (by simp [hk])] at this

end keys

/-- Position key of a call. -/
def Call.key (c : Call) : Int × Int := (c.e, c.s)

/-- Strictly further right. -/
def keyGt (a b : Int × Int) : Prop := b.1 < a.1 ∨ (a.1 = b.1 ∧ b.2 < a.2)

theorem tag_filter (P : Call → Bool) (n : Nat) (cs : List Call) :
    ((tag n cs).filter (fun r => P r.call)).map Repl.call = cs.filter P := by
  induction cs generalizing n with
  | nil => rfl
  | cons c cs ih =>
    have : Repl.call ⟨c.s, c.e, c.text, n⟩ = c := rfl
    simp only [tag, List.filter_cons, this]
    split <;> simp [ih, this]

/-- The requests with a given position, in sorted order, are the calls with that position in
reverse call order. -/
theorem sortedCalls_filter (cs : List Call) (k : Int × Int) :
    ((sortedCalls cs).map Repl.call).filter (fun c => decide (c.key = k)) =
      (cs.filter (fun c => decide (c.key = k))).reverse := by
  have h1 : (sortedCalls cs).filter (fun r => decide (r.call.key = k)) =
      ((tag 0 cs).filter (fun r => decide (r.call.key = k))).reverse := by
    apply pairwise_perm_eq (le := Repl.le)
    · exact List.Pairwise.filter _ (sortBy_pairwise Repl.le_total Repl.le_trans _)
    · rw [List.pairwise_reverse]
      have := (tag_pairwise 0 cs).filter (fun r => decide (r.call.key = k))
      refine List.Pairwise.imp_of_mem ?_ this
      intro a b ha hb hab
      have ha := of_decide_eq_true (List.mem_filter.1 ha).2
      have hb := of_decide_eq_true (List.mem_filter.1 hb).2
      rw [Repl.le_iff]
      have := ha.trans hb.symm
      simp only [Call.key, Repl.call, Prod.mk.injEq] at this
      omega
    · exact ((sortBy_perm _).filter _).trans (List.reverse_perm _).symm
    · intro x hx y hy
      exact tag_antisymm x ((sortBy_perm _).mem_iff.1 (List.mem_filter.1 hx).1) y
        ((sortBy_perm _).mem_iff.1 (List.mem_filter.1 hy).1)
  have h2 : ∀ l : List Repl, (l.map Repl.call).filter (fun c => decide (c.key = k)) =
      (l.filter (fun r => decide (r.call.key = k))).map Repl.call := by
    intro l
    rw [List.filter_map]; rfl
  rw [h2, h1, List.map_reverse]
  exact congrArg List.reverse (tag_filter (fun c => decide (c.key = k)) 0 cs)

theorem sortedCalls_keys (cs : List Call) :
    ((sortedCalls cs).map Repl.call).Pairwise (fun a b => keyGt a.key b.key ∨ a.key = b.key) := by
  rw [List.pairwise_map]
  refine (sortBy_pairwise Repl.le_total Repl.le_trans (tag 0 cs)).imp ?_
  intro a b h
  rw [Repl.le_iff] at h
  simp only [keyGt, Call.key, Repl.call, Prod.mk.injEq]
  omega

theorem sortedCalls_congr (cs ds : List Call)
    (h : ∀ k, cs.filter (fun c => decide (c.key = k)) = ds.filter (fun c => decide (c.key = k))) :
    (sortedCalls cs).map Repl.call = (sortedCalls ds).map Repl.call := by
  apply eq_of_key_filters Call.key keyGt
  · intro k; simp [keyGt]
  · intro a b; simp only [keyGt]; omega
  · exact sortedCalls_keys cs
  · exact sortedCalls_keys ds
  · intro k; rw [sortedCalls_filter, sortedCalls_filter, h]

/-- The edit of a call. -/
def Call.edit (c : Call) : Spec.Edit := ⟨c.s / 16, c.e / 16 + 1, c.text⟩

theorem map_edit (l : List Repl) : l.map Repl.edit = (l.map Repl.call).map Call.edit := by
  simp [Repl.edit, Call.edit, Repl.call, Repl.start, Repl.stop]

end WS
