import Verif.Spec.SourceMap
/-! # Line-level maps (no reference to the model)

Generated text is a sequence of pieces. Columns count bytes here. -/

namespace WS.Spec

/-- A piece of generated text: without origin, from the lines of a source beginning with `line`, or all
from one line of a source. -/
inductive Piece where
  | plain (text : List Char)
  | lines (text : List Char) (source : Int) (line : Nat)
  | single (text : List Char) (source : Int) (line : Nat)
  deriving DecidableEq, Repr

/-- Its text. -/
def Piece.text : Piece → List Char
  | .plain t => t
  | .lines t _ _ => t
  | .single t _ _ => t

/-- The position reached from `p` after a character, columns in bytes. -/
def advanceB (p : Nat × Nat) (c : Char) : Nat × Nat :=
  if c = '\n' then (p.1 + 1, 0) else (p.1, p.2 + c.utf8Size)

/-- The position after a text that starts at `p`, columns in bytes. -/
def posFromB (p : Nat × Nat) (s : List Char) : Nat × Nat := s.foldl advanceB p

/-- A point for every line of the text but the first, provided the text goes on there: the next line of
the source (`step = 1`) or the same one (`step = 0`). The first line is generated line `l` and comes
from line `n`. -/
def furtherLines (src : Int) (step : Nat) : Nat → Nat → List Char → List Point
  | _, _, [] => []
  | l, n, c :: rest =>
    if c = '\n' then
      if rest = [] then []
      else ⟨l + 1, 0, some ⟨src, n + step, 0, none⟩⟩ :: furtherLines src step (l + 1) (n + step) rest
    else furtherLines src step l n rest

/-- The points of a mapped text that starts at `p`: one where it starts, one for every further line. -/
def mappedLines (src : Int) (step n : Nat) (p : Nat × Nat) (t : List Char) : List Point :=
  if t = [] then [] else ⟨p.1, p.2, some ⟨src, n, 0, none⟩⟩ :: furtherLines src step p.1 n t

/-- The points of a text without origin that starts at `p`: it ends inside a line that it has begun. -/
def plainLines (p : Nat × Nat) (t : List Char) : List Point :=
  if (p.2 = 0 ∨ '\n' ∈ t) ∧ t ≠ [] ∧ t.getLast? ≠ some '\n' then [⟨(posFromB p t).1, 0, none⟩] else []

/-- The points of a piece that starts at `p`. -/
def Piece.points (p : Nat × Nat) : Piece → List Point
  | .plain t => plainLines p t
  | .lines t s n => mappedLines s 1 n p t
  | .single t s n => mappedLines s 0 n p t

/-- The points of pieces, the first starting at `p`. -/
def piecesPoints : Nat × Nat → List Piece → List Point
  | _, [] => []
  | p, x :: xs => x.points p ++ piecesPoints (posFromB p x.text) xs

/-- The text of pieces. -/
def piecesText (xs : List Piece) : List Char := (xs.map Piece.text).flatten

/-- A text with, for every character, the source and the line it comes from. -/
abbrev LineMarked := List (Char × Option (Int × Nat))

/-- The characters of a mapped text whose first line is line `n`. -/
def linesMarks (src : Int) (step : Nat) : Nat → List Char → LineMarked
  | _, [] => []
  | n, c :: rest => (c, some (src, n)) :: linesMarks src step (if c = '\n' then n + step else n) rest

/-- The characters of a piece. -/
def Piece.marks : Piece → LineMarked
  | .plain t => t.map fun c => (c, none)
  | .lines t s n => linesMarks s 1 n t
  | .single t s n => linesMarks s 0 n t

/-- The characters of pieces. -/
def piecesMarks (xs : List Piece) : LineMarked := (xs.map Piece.marks).flatten

/-- What is seen of an attribution at line level: text without origin goes with the mapped text before
it on its line, `cur`, if there is any. -/
def shown : Option (Int × Nat) → LineMarked → LineMarked
  | _, [] => []
  | cur, (c, o) :: rest =>
    (c, o.or cur) :: shown (if c = '\n' then none else o.or cur) rest

/-- The points attribute every character as said, at column 0 of its line and without name; `p` is
where the text starts. -/
def AttributesB (ps : List Point) (p : Nat × Nat) (m : LineMarked) : Prop :=
  ∀ k c o, m[k]? = some (c, o) →
    lookup ps (posFromB p ((m.take k).map Prod.fst)).1 (posFromB p ((m.take k).map Prod.fst)).2 =
      o.map fun x => ⟨x.1, x.2, 0, none⟩

end WS.Spec
