import Verif.Proofs.Reads
/-! # C03 `PrefixSource` indents every line exactly once -/

namespace WS
open Spec

/-- The lines of a text, each with the prefix; a trailing empty line of a text with several lines
gets none. -/
def Spec.PrefixedLines (p : List Char) : List (List Char) → List Char
  | [] => []
  | [l] => p ++ l
  | l :: [l'] => p ++ l ++ (if l' = [] then [] else p ++ l')
  | l :: l' :: ls => p ++ l ++ PrefixedLines p (l' :: ls)

theorem prefixedLines_eq (p s : Str) (ls : List Str) (h : IsLines '\n' s ls) :
    PrefixedLines p ls = indent p s := by
  rw [IsLines.unique _ _ _ h]
  clear h
  induction s using piece_induction '\n' with
  | base s hs => simp [splitKeep_of_not_mem hs, PrefixedLines, indent, indentRest_of_not_mem p hs]
  | step x r hx ih =>
    rw [splitKeep_append_sep hx, indent, indentRest_line p r hx]
    cases hk : splitKeep '\n' r with
    | nil => exact absurd hk (splitKeep_ne_nil _ _)
    | cons l ls =>
      cases ls with
      | nil =>
        have hr : r = l := by
          have := splitKeep_flatten '\n' r
          rw [hk] at this; simpa using this.symm
        subst hr
        rw [hk] at ih
        simp only [PrefixedLines, indent] at ih ⊢
        by_cases h0 : r = []
        · subst h0; simp [indentRest]
        · simp only [h0, if_false, ne_eq, not_false_eq_true, if_true]
          have : indentRest p r = r := by simpa using ih.symm
          simp [this]
      | cons l' ls =>
        have h0 : r ≠ [] := by
          intro h0; subst h0; simp [splitKeep] at hk
        rw [hk] at ih
        simp only [PrefixedLines] at ih ⊢
        rw [ih]
        simp [indent, h0]

/-- C03. After any history, `source()` of a `PrefixSource` succeeds with `s` exactly if `source()` of
the wrapped source succeeds, with a text `u`, and `s` is `u` with the prefix in front of each of its
lines (`ls` are the lines of `u`). -/
theorem C03_prefix_source (ops : List Op) (h : Heap) (i : Nat) (p : List Char) (c : Src)
    (s : List Char) (hrun : run ops = .ok h) (hi : (created ops)[i]? = some (.newPrefix p c)) :
    (∃ h', apiSource h i = .ok (s, h')) ↔
      ∃ u ls, ReadsAs h c u ∧ IsLines '\n' u ls ∧ s = PrefixedLines p ls := by
  obtain ⟨A, hA, H⟩ := run_abs hrun
  have D := stepAll_described hA i
  rw [hi] at D
  simp only [Option.bind_some, objOf] at D
  rw [api_source_iff H]
  constructor
  · rintro ⟨t, ht, rfl⟩
    cases ht with
    | @prefixed _ _ _ t e hc =>
      rw [D] at e; cases e
      have hl := isLines_splitKeep '\n' t.text
      exact ⟨_, _, (readsAs_iff H _ _).2 ⟨_, hc, rfl⟩, hl, (prefixedLines_eq _ _ _ hl).symm⟩
    | raw e => rw [D] at e; cases e
    | original e => rw [D] at e; cases e
    | l2l e => rw [D] at e; cases e
    | sms e => rw [D] at e; cases e
    | concat e => rw [D] at e; cases e
    | replace e => rw [D] at e; cases e
  · rintro ⟨u, ls, hu, hl, rfl⟩
    obtain ⟨t, ht, rfl⟩ := (readsAs_iff H _ _).1 hu
    exact ⟨_, .prefixed D ht, (prefixedLines_eq _ _ _ hl).symm⟩

/-- C03, the same as a transformation of the characters: the prefix comes first and after every
newline that is followed by something. -/
theorem C03_prefix_source_chars (ops : List Op) (h : Heap) (i : Nat) (p : List Char) (c : Src)
    (s : List Char) (hrun : run ops = .ok h) (hi : (created ops)[i]? = some (.newPrefix p c)) :
    (∃ h', apiSource h i = .ok (s, h')) ↔ ∃ u, ReadsAs h c u ∧ s = indent p u := by
  rw [C03_prefix_source ops h i p c s hrun hi]
  constructor
  · rintro ⟨u, ls, hu, hl, rfl⟩; exact ⟨u, hu, prefixedLines_eq p u ls hl⟩
  · rintro ⟨u, hu, rfl⟩
    exact ⟨u, _, hu, isLines_splitKeep _ u, (prefixedLines_eq p u _ (isLines_splitKeep _ u)).symm⟩

/-! Non-trivial cases: an empty line in the middle, a trailing newline, the empty text. -/
example : (match run [.newRaw "a\n\nb\n".toList, .newPrefix "> ".toList (.ref 0)] with
    | .ok h => (apiSource h 1).toOption.map Prod.fst | .error _ => none)
      = some "> a\n> \n> b\n".toList := by decide +kernel
example : (match run [.newPrefix "> ".toList (.str [])] with
    | .ok h => (apiSource h 0).toOption.map Prod.fst | .error _ => none)
      = some "> ".toList := by decide +kernel
example : PrefixedLines "> ".toList ["a\n".toList, "\n".toList, "b\n".toList, []]
      = "> a\n> \n> b\n".toList := by decide +kernel

end WS
