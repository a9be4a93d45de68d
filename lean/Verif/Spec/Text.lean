/-! # Specifications of text operations (no reference to the model) -/

namespace WS.Spec

/-- `ls` are the pieces of `s` cut after each `p`: joined they give `s`, every piece but the last is
some text without `p` followed by `p`, the last one has no `p`. -/
def IsLines (p : Char) (s : List Char) (ls : List (List Char)) : Prop :=
  ∃ init last, ls = init ++ [last] ∧ ls.flatten = s ∧ p ∉ last ∧
    ∀ l ∈ init, ∃ x, l = x ++ [p] ∧ p ∉ x

/-- Joining with a separator. -/
def joinWith (p : Char) : List (List Char) → List Char
  | [] => []
  | [l] => l
  | l :: l' :: ls => l ++ p :: joinWith p (l' :: ls)

/-- `ls` are the pieces of `s` cut at each `p`, without it. -/
def IsCut (p : Char) (s : List Char) (ls : List (List Char)) : Prop :=
  ls ≠ [] ∧ joinWith p ls = s ∧ ∀ l ∈ ls, p ∉ l

/-- `pre` after every newline that is followed by something. -/
def indentRest (pre : List Char) : List Char → List Char
  | [] => []
  | c :: cs => c :: ((if c = '\n' ∧ cs ≠ [] then pre else []) ++ indentRest pre cs)

/-- The text with `pre` in front of each of its lines; a trailing empty line gets none. -/
def indent (pre s : List Char) : List Char := pre ++ indentRest pre s

end WS.Spec
