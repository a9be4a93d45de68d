import Verif.Proofs.Text
/-! # C29 Line splitting is exact -/

namespace WS

/-- Calling `next` `k` times: the results and the iterator afterwards. -/
def Split.takeN : Nat → Split → M (List (Option Str) × Split)
  | 0, it => .ok ([], it)
  | k + 1, it =>
    match it.next with
    | .error e => .error e
    | .ok (o, it) =>
      match Split.takeN k it with
      | .error e => .error e
      | .ok (os, it) => .ok (o :: os, it)

theorem next_sep_keep {p : Char} {x : Str} (h : p ∉ x) (r : Str) :
    Split.next ⟨true, some (x ++ p :: r), p, true⟩ = .ok (some (x ++ [p]), ⟨true, some r, p, true⟩) := by
  have e : x ++ p :: r = (x ++ [p]) ++ r := by simp
  have hl : (x ++ [p]).length = x.length + 1 := by simp
  have h1 : (x ++ p :: r).take (x.length + 1) = x ++ [p] := by rw [e, ← hl, List.take_left' rfl]
  have h2 : (x ++ p :: r).drop (x.length + 1) = r := by rw [e, ← hl, List.drop_left' rfl]
  simp only [Split.next, idxOf_append_sep h, h1, h2]
  simp

theorem next_sep_drop {p : Char} {x : Str} (h : p ∉ x) (r : Str) :
    Split.next ⟨true, some (x ++ p :: r), p, false⟩ = .ok (some x, ⟨true, some r, p, false⟩) := by
  have e : x ++ p :: r = (x ++ [p]) ++ r := by simp
  have hl : (x ++ [p]).length = x.length + 1 := by simp
  have h1 : (x ++ p :: r).take x.length = x := List.take_left' rfl
  have h2 : (x ++ p :: r).drop (x.length + 1) = r := by rw [e, ← hl, List.drop_left' rfl]
  simp only [Split.next, idxOf_append_sep h, h1, h2]
  simp

theorem next_last {p : Char} {s : Str} (h : p ∉ s) (keep : Bool) :
    Split.next ⟨true, some s, p, keep⟩ = .ok (some s, ⟨false, none, p, keep⟩) := by
  simp [Split.next, idxOf_of_not_mem h]

theorem takeN_done (p : Char) (keep : Bool) (k : Nat) :
    Split.takeN k ⟨false, none, p, keep⟩ = .ok (List.replicate k none, ⟨false, none, p, keep⟩) := by
  induction k with
  | zero => rfl
  | succ k ih => simp [Split.takeN, Split.next, ih, List.replicate_succ]

theorem takeN_keep (p : Char) (s : Str) (k : Nat) : ∃ it,
    Split.takeN k (Split.new s p true) =
      .ok (((splitKeep p s).map some ++ List.replicate k none).take k, it) ∧
    it.rest = if k < (splitKeep p s).length then some ((splitKeep p s).drop k).flatten else none := by
  induction s using piece_induction p generalizing k with
  | base s h =>
    cases k with
    | zero => exact ⟨_, rfl, by simp [splitKeep_of_not_mem h, Split.new]⟩
    | succ k =>
      refine ⟨⟨false, none, p, true⟩, ?_, by simp [splitKeep_of_not_mem h]⟩
      simp [Split.takeN, Split.new, next_last h, takeN_done, splitKeep_of_not_mem h]
  | step x r hx ih =>
    cases k with
    | zero => exact ⟨_, rfl, by simp [splitKeep_append_sep hx, Split.new, splitKeep_flatten]⟩
    | succ k =>
      obtain ⟨it, h₁, h₂⟩ := ih k
      simp only [Split.new] at h₁
      simp only [Split.takeN, Split.new, next_sep_keep hx, h₁]
      refine ⟨it, ?_, ?_⟩
      · simp only [splitKeep_append_sep hx]
        rw [List.replicate_succ']
        simp [List.take_append, Nat.sub_eq_zero_of_le]
      · rw [h₂, splitKeep_append_sep hx]; simp

theorem takeN_drop (p : Char) (s : Str) (k : Nat) : ∃ it,
    Split.takeN k (Split.new s p false) =
      .ok (((splitDrop p s).map some ++ List.replicate k none).take k, it) ∧
    it.rest = if k < (splitDrop p s).length then some (Spec.joinWith p ((splitDrop p s).drop k))
      else none := by
  induction s using piece_induction p generalizing k with
  | base s h =>
    cases k with
    | zero => exact ⟨_, rfl, by simp [splitDrop_of_not_mem h, Split.new, Spec.joinWith]⟩
    | succ k =>
      refine ⟨⟨false, none, p, false⟩, ?_, by simp [splitDrop_of_not_mem h]⟩
      simp [Split.takeN, Split.new, next_last h, takeN_done, splitDrop_of_not_mem h]
  | step x r hx ih =>
    cases k with
    | zero =>
      refine ⟨_, rfl, ?_⟩
      have := (isCut_splitDrop p r)
      simp [splitDrop_append_sep hx, Split.new, joinWith_cons p x this.1, this.2.1]
    | succ k =>
      obtain ⟨it, h₁, h₂⟩ := ih k
      simp only [Split.new] at h₁
      simp only [Split.takeN, Split.new, next_sep_drop hx, h₁]
      refine ⟨it, ?_, ?_⟩
      · simp only [splitDrop_append_sep hx]
        rw [List.replicate_succ']
        simp [List.take_append, Nat.sub_eq_zero_of_le]
      · rw [h₂, splitDrop_append_sep hx]; simp

/-- C29, separators kept: there are pieces as specified; asking the iterator `k` times yields the
first `k` of them (then `none` for ever), never panics, and `rest` is what the remaining pieces
join to. -/
theorem C29_split_keep (p : Char) (s : Str) : ∃ pieces, Spec.IsLines p s pieces ∧ ∀ k, ∃ it,
    Split.takeN k (Split.new s p true) =
      .ok ((pieces.map some ++ List.replicate k none).take k, it) ∧
    it.rest = if k < pieces.length then some (pieces.drop k).flatten else none :=
  ⟨splitKeep p s, isLines_splitKeep p s, takeN_keep p s⟩

/-- C29, separators dropped. -/
theorem C29_split_drop (p : Char) (s : Str) : ∃ pieces, Spec.IsCut p s pieces ∧ ∀ k, ∃ it,
    Split.takeN k (Split.new s p false) =
      .ok ((pieces.map some ++ List.replicate k none).take k, it) ∧
    it.rest = if k < pieces.length then some (Spec.joinWith p (pieces.drop k)) else none :=
  ⟨splitDrop p s, isCut_splitDrop p s, takeN_drop p s⟩

/-- C29: the list `splitKeep` over which the model's loops recurse is the only list of pieces that
meets the specification. -/
theorem C29_pieces_unique (p : Char) (s : Str) (ls : List Str) :
    Spec.IsLines p s ls ↔ ls = splitKeep p s :=
  ⟨IsLines.unique p s ls, fun h => h ▸ isLines_splitKeep p s⟩

-- non-trivial case: several pieces, empty last piece, empty middle piece
example : Split.takeN 5 (Split.new "a\n\nb\n".toList '\n' true) =
    .ok ([some "a\n".toList, some "\n".toList, some "b\n".toList, some [], none],
      ⟨false, none, '\n', true⟩) := by decide
example : Split.takeN 2 (Split.new "a;;b".toList ';' false) =
    .ok ([some "a".toList, some []], ⟨true, some "b".toList, ';', false⟩) := by decide
example : Spec.IsLines '\n' "a\n\nb\n".toList ["a\n".toList, "\n".toList, "b\n".toList, []] :=
  (C29_pieces_unique _ _ _).2 (by decide)

end WS
