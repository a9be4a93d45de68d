import Verif.Proofs.Generator
/-! # `original_position_for` -/

namespace WS
open Spec

/-- Once greater, always greater. -/
def MonoGt (f : Nat → Ordering) : Prop := ∀ i j, i ≤ j → f i = .gt → f j = .gt

theorem bsearchLoop_spec {f : Nat → Ordering} (hm : MonoGt f) :
    ∀ (fuel base size : Nat), size ≤ fuel → 1 ≤ size → (base = 0 ∨ f base ≠ .gt) →
      (∀ i, base + size ≤ i → f i = .gt) →
      let b := bsearchLoop f fuel base size
      (b = 0 ∨ f b ≠ .gt) ∧ (∀ i, b < i → f i = .gt) ∧ b < base + size := by
  intro fuel
  induction fuel with
  | zero => intro base size h1 h2; omega
  | succ fuel ih =>
    intro base size hf hs hb hgt
    simp only [bsearchLoop]
    split
    · exact ⟨hb, fun i hi => hgt i (by omega), by omega⟩
    · by_cases hmid : f (base + size / 2) = .gt
      · rw [if_pos hmid]
        have := ih base (size - size / 2) (by omega) (by omega) hb
          (fun i hi => hm (base + size / 2) i (by omega) hmid)
        exact ⟨this.1, this.2.1, by have := this.2.2; omega⟩
      · rw [if_neg hmid]
        have := ih (base + size / 2) (size - size / 2) (by omega) (by omega) (.inr hmid)
          (fun i hi => hgt i (by omega))
        exact ⟨this.1, this.2.1, by have := this.2.2; omega⟩

/-- The last element that is not greater. -/
theorem binarySearch_last {α : Type _} (l : List α) (f : α → Ordering)
    (hm : ∀ (i j : Nat) (a b : α), i ≤ j → l[i]? = some a → l[j]? = some b → f a = .gt → f b = .gt) :
    (match binarySearch l f with
      | (true, i) => l[i]?
      | (false, i) => if i = 0 then none else l[i - 1]?) = (l.filter fun a => f a != .gt).getLast? := by
  unfold binarySearch
  dsimp only
  by_cases hl : l.length = 0
  · rw [if_pos hl]
    have : l = [] := List.eq_nil_of_length_eq_zero hl
    subst this; rfl
  · rw [if_neg hl]
    let g : Nat → Ordering := fun i => match l[i]? with | some a => f a | none => .gt
    have hmono : MonoGt g := by
      intro i j hij h
      show (match l[j]? with | some a => f a | none => Ordering.gt) = _
      cases hj : l[j]? with
      | none => rfl
      | some b =>
        have hjl : j < l.length := (List.getElem?_eq_some_iff.1 hj).1
        have hi : l[i]? = some l[i] := List.getElem?_eq_getElem (by omega)
        have h' : f l[i] = .gt := by
          have : g i = f l[i] := by show (match l[i]? with | some a => f a | none => _) = _; rw [hi]
          rw [← this]; exact h
        exact hm i j _ b hij hi hj h'
    have key := bsearchLoop_spec hmono l.length 0 l.length (Nat.le_refl _) (by omega) (.inl rfl)
      (fun i hi => by
        show (match l[i]? with | some a => f a | none => Ordering.gt) = _
        rw [List.getElem?_eq_none (by omega)])
    change (match (match g (bsearchLoop g l.length 0 l.length) with
      | .eq => (true, bsearchLoop g l.length 0 l.length)
      | .lt => (false, bsearchLoop g l.length 0 l.length + 1)
      | .gt => (false, bsearchLoop g l.length 0 l.length)) with
      | (true, i) => l[i]?
      | (false, i) => if i = 0 then none else l[i - 1]?) = _
    dsimp only at key
    generalize bsearchLoop g l.length 0 l.length = b at key
    obtain ⟨h1, h2, h3⟩ := key
    have hb : l[b]? = some l[b] := List.getElem?_eq_getElem (by omega)
    have hgb : g b = f l[b] := by show (match l[b]? with | some a => f a | none => _) = _; rw [hb]
    have hgi : ∀ (i : Nat) (a : α), l[i]? = some a → g i = f a := by
      intro i a hi
      show (match l[i]? with | some a => f a | none => _) = _; rw [hi]
    -- the filter is the prefix of length `b + 1`, or nothing
    by_cases hgt : g b = .gt
    · have hb0 : b = 0 := by
        rcases h1 with h | h
        · exact h
        · exact absurd hgt h
      have hall : l.filter (fun a => f a != .gt) = [] := by
        rw [List.filter_eq_nil_iff]
        intro a ha
        obtain ⟨i, hi⟩ := List.getElem?_of_mem ha
        have : g i = .gt := hmono b i (by omega) hgt
        rw [hgi i a hi] at this
        simp [this]
      rw [hgt, hall]
      simp [hb0]
    · have hfil : l.filter (fun a => f a != .gt) = l.take (b + 1) := by
        have hsplit : l = l.take (b + 1) ++ l.drop (b + 1) := (List.take_append_drop _ _).symm
        conv => lhs; rw [hsplit]
        rw [List.filter_append]
        have e1 : (l.take (b + 1)).filter (fun a => f a != .gt) = l.take (b + 1) := by
          rw [List.filter_eq_self]
          intro a ha
          obtain ⟨i, hi⟩ := List.getElem?_of_mem ha
          have hlt : i < b + 1 := by
            have := (List.getElem?_eq_some_iff.1 hi).1
            rw [List.length_take] at this; omega
          rw [List.getElem?_take_of_lt hlt] at hi
          have : g i ≠ .gt := fun h => hgt (hmono i b (by omega) h)
          rw [hgi i a hi] at this
          simpa using this
        have e2 : (l.drop (b + 1)).filter (fun a => f a != .gt) = [] := by
          rw [List.filter_eq_nil_iff]
          intro a ha
          obtain ⟨i, hi⟩ := List.getElem?_of_mem ha
          rw [List.getElem?_drop] at hi
          have : g (b + 1 + i) = .gt := h2 _ (by omega)
          rw [hgi _ a hi] at this
          simp [this]
        rw [e1, e2, List.append_nil]
      have hlast : (l.take (b + 1)).getLast? = some l[b] := by
        rw [List.getLast?_eq_getElem?, List.length_take]
        have : min (b + 1) l.length - 1 = b := by omega
        rw [this, List.getElem?_take_of_lt (by omega), hb]
      rw [hfil, hlast]
      cases hg : g b with
      | eq => exact hb
      | lt => simp only [Nat.add_sub_cancel]; rw [if_neg (by omega)]; exact hb
      | gt => exact absurd hg hgt

theorem cmpPair_ne_gt (a b : Nat × Nat) : cmpPair a b ≠ .gt ↔ a.1 < b.1 ∨ (a.1 = b.1 ∧ a.2 ≤ b.2) := by
  rw [← cmpPair_iff_le]
  cases cmpPair a b <;> simp [Ordering.isLE]

/-- The last point of the line at or before the column, for an ordered list. -/
theorem pointAt_eq (ps : List Point) (hs : ps.Pairwise Point.Le) (l c : Nat) :
    pointAt ps l c =
      ((ps.filter fun p => decide (p.line < l ∨ (p.line = l ∧ p.col ≤ c))).getLast?).bind
        fun p => if p.line = l then some p else none := by
  induction ps with
  | nil => rfl
  | cons p ps ih =>
    rw [List.pairwise_cons] at hs
    rw [pointAt, ih hs.2, List.filter_cons]
    have hmem : ∀ q, (ps.filter fun p => decide (p.line < l ∨ (p.line = l ∧ p.col ≤ c))).getLast? = some q →
        q ∈ ps ∧ (q.line < l ∨ (q.line = l ∧ q.col ≤ c)) := by
      intro q hq
      have := List.mem_of_getLast? hq
      rw [List.mem_filter] at this
      exact ⟨this.1, by simpa using this.2⟩
    generalize hF : (ps.filter fun p => decide (p.line < l ∨ (p.line = l ∧ p.col ≤ c))) = F at hmem ⊢
    split
    · rename_i q hq
      cases hl : F.getLast? with
      | none => rw [hl] at hq; simp at hq
      | some r =>
        rw [hl] at hq
        have hne : F ≠ [] := by intro h; rw [h] at hl; cases hl
        split
        · rw [List.getLast?_cons, hl]; simpa using hq.symm
        · rw [hl]; exact hq.symm
    · rename_i hq
      cases hl : F.getLast? with
      | none =>
        have : F = [] := by simpa using hl
        subst this
        split
        · rename_i h1
          simp only [h1.1]
          rw [if_pos (by simp [h1.2])]
          simp [h1.1]
        · rename_i h1
          split
          · rename_i h2
            simp at h2
            simp
            omega
          · rfl
      | some r =>
        rw [hl] at hq
        simp only [Option.bind_some] at hq
        have hr := hmem r hl
        have hrl : r.line ≠ l := by
          intro h
          rw [if_pos h] at hq
          cases hq
        have hpr := hs.1 r hr.1
        simp only [Point.Le] at hpr
        split
        · omega
        · have : p.line < l := by omega
          rw [if_pos (by simp; exact .inl this), List.getLast?_cons, hl]
          simp [hrl]

/-- The lookup in an ordered list agrees with the specification. -/
theorem originalPositionIn_eq (l : List Mapping)
    (hs : l.Pairwise (fun a b => Mapping.le a b = true)) (line col : Nat) :
    originalPositionIn l line col =
      ((l.filter fun m => decide (m.generated.1 < line ∨ (m.generated.1 = line ∧ m.generated.2 ≤ col))).getLast?.bind
        fun m => if m.generated.1 = line then some m else none).getD emptyMapping := by
  unfold originalPositionIn
  have hm : ∀ (i j : Nat) (a b : Mapping), i ≤ j → l[i]? = some a → l[j]? = some b →
      cmpPair a.generated (line, col) = .gt → cmpPair b.generated (line, col) = .gt := by
    intro i j a b hij hi hj hgt
    have hab : a = b ∨ Mapping.le a b = true := by
      rcases Nat.lt_or_ge i j with h | h
      · right
        have hjl := (List.getElem?_eq_some_iff.1 hj)
        have hil := (List.getElem?_eq_some_iff.1 hi)
        have := List.pairwise_iff_getElem.1 hs i j hil.1 hjl.1 h
        rw [hil.2, hjl.2] at this
        exact this
      · left
        have : i = j := by omega
        subst this
        rw [hi] at hj; exact Option.some.inj hj
    rcases hab with rfl | hab
    · exact hgt
    · have := Mapping.le_generated hab
      apply Decidable.byContradiction
      intro hne
      rw [← ne_eq, cmpPair_ne_gt] at hne
      have : cmpPair a.generated (line, col) ≠ .gt := by
        rw [cmpPair_ne_gt]
        simp only at hne ⊢
        omega
      exact this hgt
  have := binarySearch_last l (fun m => cmpPair m.generated (line, col)) hm
  dsimp only
  have e : (fun a : Mapping => cmpPair a.generated (line, col) != .gt) =
      (fun m => decide (m.generated.1 < line ∨ (m.generated.1 = line ∧ m.generated.2 ≤ col))) := by
    funext a
    have := cmpPair_ne_gt a.generated (line, col)
    rw [Bool.eq_iff_iff, decide_eq_true_iff, bne_iff_ne]
    exact this
  rw [e] at this
  rw [← this]
  rcases binarySearch l (fun m => cmpPair m.generated (line, col)) with ⟨b, i⟩
  have h : ∀ x : Option Mapping, (match x with
      | none => emptyMapping
      | some m => if m.generated.1 = line then m else emptyMapping) =
      (x.bind fun m => if m.generated.1 = line then some m else none).getD emptyMapping := by
    intro x
    cases x with
    | none => rfl
    | some m => simp only [Option.bind_some]; split <;> rfl
  cases b <;> exact h _

theorem originalPositionIn_lookup (l : List Mapping)
    (hs : l.Pairwise (fun a b => Mapping.le a b = true)) (line col : Nat) :
    (originalPositionIn l line col).point.origin = lookup (l.map Mapping.point) line col := by
  rw [originalPositionIn_eq l hs, lookup, pointAt_eq _ (sorted_points hs), List.filter_map]
  have : (fun p : Point => decide (p.line < line ∨ (p.line = line ∧ p.col ≤ col))) ∘ Mapping.point =
      (fun m => decide (m.generated.1 < line ∨ (m.generated.1 = line ∧ m.generated.2 ≤ col))) := by
    funext m; rfl
  rw [this]
  cases h : (l.filter (fun m => decide (m.generated.1 < line ∨ (m.generated.1 = line ∧ m.generated.2 ≤ col)))).getLast? with
  | none => rw [List.getLast?_map, h]; rfl
  | some m =>
    rw [List.getLast?_map, h]
    simp only [Option.bind_some, Option.map_some]
    have : m.point.line = m.generated.1 := rfl
    rw [this]
    split <;> rfl

end WS
