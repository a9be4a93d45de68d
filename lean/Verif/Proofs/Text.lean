import Verif.Model.Sources
import Verif.Spec.Text
/-! # Lemmas about pieces of text -/

namespace WS

/-- Induction adding elements at the end. -/
theorem snoc_induction {α : Type _} {P : List α → Prop} (nil : P [])
    (snoc : ∀ l a, P l → P (l ++ [a])) (l : List α) : P l := by
  rw [← List.reverse_reverse l]
  induction l.reverse with
  | nil => exact nil
  | cons a l ih => rw [List.reverse_cons]; exact snoc _ _ ih

theorem splitKeep_ne_nil (p : Char) (s : Str) : splitKeep p s ≠ [] := by
  cases s with
  | nil => simp [splitKeep]
  | cons c cs =>
    simp only [splitKeep]
    split
    · simp
    · split <;> simp

theorem splitDrop_ne_nil (p : Char) (s : Str) : splitDrop p s ≠ [] := by
  cases s with
  | nil => simp [splitDrop]
  | cons c cs =>
    simp only [splitDrop]
    split
    · simp
    · split <;> simp

theorem splitKeep_flatten (p : Char) (s : Str) : (splitKeep p s).flatten = s := by
  induction s with
  | nil => rfl
  | cons c cs ih =>
    simp only [splitKeep]
    split
    · simp [ih]
    · split <;> rename_i h
      · exact absurd h (splitKeep_ne_nil p cs)
      · rw [h] at ih; simpa using ih

/-- Prepending a character that is not the separator extends the first piece. -/
theorem splitKeep_cons_ne {p c : Char} (h : c ≠ p) (cs : Str) :
    ∃ l ls, splitKeep p cs = l :: ls ∧ splitKeep p (c :: cs) = (c :: l) :: ls := by
  cases h' : splitKeep p cs with
  | nil => exact absurd h' (splitKeep_ne_nil p cs)
  | cons l ls => exact ⟨l, ls, rfl, by simp [splitKeep, h, h']⟩

theorem splitDrop_cons_ne {p c : Char} (h : c ≠ p) (cs : Str) :
    ∃ l ls, splitDrop p cs = l :: ls ∧ splitDrop p (c :: cs) = (c :: l) :: ls := by
  cases h' : splitDrop p cs with
  | nil => exact absurd h' (splitDrop_ne_nil p cs)
  | cons l ls => exact ⟨l, ls, rfl, by simp [splitDrop, h, h']⟩

theorem splitKeep_of_not_mem {p : Char} {s : Str} (h : p ∉ s) : splitKeep p s = [s] := by
  induction s with
  | nil => rfl
  | cons c cs ih =>
    simp only [List.mem_cons, not_or] at h
    simp [splitKeep, ih h.2, Ne.symm h.1]

theorem splitDrop_of_not_mem {p : Char} {s : Str} (h : p ∉ s) : splitDrop p s = [s] := by
  induction s with
  | nil => rfl
  | cons c cs ih =>
    simp only [List.mem_cons, not_or] at h
    simp [splitDrop, ih h.2, Ne.symm h.1]

theorem splitKeep_append_sep {p : Char} {x : Str} (h : p ∉ x) (r : Str) :
    splitKeep p (x ++ p :: r) = (x ++ [p]) :: splitKeep p r := by
  induction x with
  | nil => simp [splitKeep]
  | cons c cs ih =>
    simp only [List.mem_cons, not_or] at h
    simp [splitKeep, ih h.2, Ne.symm h.1]

theorem splitDrop_append_sep {p : Char} {x : Str} (h : p ∉ x) (r : Str) :
    splitDrop p (x ++ p :: r) = x :: splitDrop p r := by
  induction x with
  | nil => simp [splitDrop]
  | cons c cs ih =>
    simp only [List.mem_cons, not_or] at h
    simp [splitDrop, ih h.2, Ne.symm h.1]

/-- Every text either has no separator or a first one. -/
theorem first_sep (p : Char) (s : Str) : p ∉ s ∨ ∃ x r, s = x ++ p :: r ∧ p ∉ x := by
  induction s with
  | nil => simp
  | cons c cs ih =>
    by_cases hc : c = p
    · exact .inr ⟨[], cs, by simp [hc], by simp⟩
    · rcases ih with h | ⟨x, r, rfl, hx⟩
      · exact .inl (by simp [h, Ne.symm hc])
      · exact .inr ⟨c :: x, r, by simp, by simp [hx, Ne.symm hc]⟩

/-- Induction over the pieces of a text. -/
theorem piece_induction {P : Str → Prop} (p : Char) (base : ∀ s, p ∉ s → P s)
    (step : ∀ x r, p ∉ x → P r → P (x ++ p :: r)) (s : Str) : P s := by
  rcases first_sep p s with h | ⟨x, r, rfl, hx⟩
  · exact base s h
  · exact step x r hx (piece_induction p base step r)
termination_by s.length
decreasing_by simp_all; omega

theorem isLines_splitKeep (p : Char) (s : Str) : Spec.IsLines p s (splitKeep p s) := by
  induction s using piece_induction p with
  | base s h => exact ⟨[], s, by simp [splitKeep_of_not_mem h], splitKeep_flatten p s, h, by simp⟩
  | step x r hx ih =>
    obtain ⟨init, last, h₁, -, h₃, h₄⟩ := ih
    refine ⟨(x ++ [p]) :: init, last, by simp [splitKeep_append_sep hx, h₁],
      splitKeep_flatten p _, h₃, ?_⟩
    intro l hl
    rcases List.mem_cons.1 hl with rfl | hl
    · exact ⟨x, rfl, hx⟩
    · exact h₄ l hl

theorem joinWith_cons (p : Char) (l : Str) {ls : List Str} (h : ls ≠ []) :
    Spec.joinWith p (l :: ls) = l ++ p :: Spec.joinWith p ls := by
  cases ls with
  | nil => exact absurd rfl h
  | cons _ _ => rfl

theorem isCut_splitDrop (p : Char) (s : Str) : Spec.IsCut p s (splitDrop p s) := by
  induction s using piece_induction p with
  | base s h => simp [splitDrop_of_not_mem h, Spec.IsCut, Spec.joinWith, h]
  | step x r hx ih =>
    obtain ⟨h₁, h₂, h₃⟩ := ih
    rw [splitDrop_append_sep hx]
    exact ⟨by simp, by rw [joinWith_cons p x h₁, h₂], by simpa [hx] using h₃⟩

/-- The specification determines the pieces. -/
theorem IsLines.unique (p : Char) (s : Str) (ls : List Str) (h : Spec.IsLines p s ls) :
    ls = splitKeep p s := by
  obtain ⟨init, last, rfl, rfl, h₃, h₄⟩ := h
  induction init with
  | nil => simp [splitKeep_of_not_mem h₃]
  | cons l init ih =>
    obtain ⟨x, rfl, hx⟩ := h₄ l (by simp)
    have := ih (fun l hl => h₄ l (by simp [hl]))
    simp only [List.cons_append, List.flatten_cons, List.append_assoc, List.nil_append]
    rw [splitKeep_append_sep hx, ← this]

theorem idxOf_append_sep {p : Char} {x : Str} (h : p ∉ x) (r : Str) :
    (x ++ p :: r).idxOf p = x.length := by
  induction x with
  | nil => simp
  | cons c cs ih =>
    simp only [List.mem_cons, not_or] at h
    have : (c == p) = false := by simp; exact Ne.symm h.1
    simp [List.idxOf_cons, ih h.2, this]

theorem idxOf_of_not_mem {p : Char} {s : Str} (h : p ∉ s) : s.idxOf p = s.length := by
  induction s with
  | nil => rfl
  | cons c cs ih =>
    simp only [List.mem_cons, not_or] at h
    have : (c == p) = false := by simp; exact Ne.symm h.1
    simp [List.idxOf_cons, ih h.2, this]

theorem blen_nil : blen [] = 0 := rfl
theorem blen_cons (c : Char) (s : Str) : blen (c :: s) = c.utf8Size + blen s := by simp [blen]
theorem blen_append (a b : Str) : blen (a ++ b) = blen a + blen b := by simp [blen]
theorem blen_eq_zero {s : Str} : blen s = 0 ↔ s = [] := by
  cases s with
  | nil => simp [blen]
  | cons c cs => have := Char.utf8Size_pos c; simp [blen_cons]; omega
theorem blen_flatten (ls : List Str) : blen ls.flatten = (ls.map blen).sum := by
  induction ls with
  | nil => rfl
  | cons l ls ih => simp [blen_append, ih]

end WS
