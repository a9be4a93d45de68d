/-! # The Source Map v3 format (no reference to the model)

How a reader of an emitted map understands it. Generated and original lines are numbered from 1,
columns from 0, as in the API. -/

namespace WS.Spec

/-- The base64 alphabet. -/
def alphabet : List Char :=
  "ABCDEFGHIJKLMNOPQRSTUVWXYZabcdefghijklmnopqrstuvwxyz0123456789+/".toList

/-- The digit a character stands for: its place in the alphabet. -/
def digit (c : Char) : Option Nat :=
  if alphabet.idxOf c < 64 then some (alphabet.idxOf c) else none

/-- The numbers written in a segment: base 32, least significant digit first, a digit of 32 or more
says that another one follows. -/
def naturals : List Char → Option (List Nat)
  | [] => some []
  | c :: cs =>
    match digit c, naturals cs with
    | some d, some ns =>
      if d < 32 then some (d :: ns)
      else match ns with
        | n :: ns => some ((d - 32 + 32 * n) :: ns)
        | [] => none
    | _, _ => none

/-- The lowest bit is the sign. -/
def signed (n : Nat) : Int := if n % 2 = 1 then -(n / 2 : Nat) else (n / 2 : Nat)

/-- The signed numbers written in a segment. -/
def fields (s : List Char) : Option (List Int) := (naturals s).map (List.map signed)

/-- Cut a string at every `p`. -/
def cut (p : Char) : List Char → List (List Char)
  | [] => [[]]
  | c :: cs =>
    if c = p then [] :: cut p cs
    else match cut p cs with
      | [] => [[c]]
      | l :: ls => (c :: l) :: ls

/-- The numbers a reader remembers from segment to segment. -/
structure Acc where
  col : Int := 0
  source : Int := 0
  line : Int := 0
  origCol : Int := 0
  name : Int := 0
  deriving DecidableEq, Repr

/-- A segment: generated line (from 1) and column, and source index, line (from 0), column and name
index if it has them. -/
structure Seg where
  line : Nat
  col : Int
  orig : Option (Int × Int × Int × Option Int)
  deriving DecidableEq, Repr

/-- Read one segment on line `l`; every number is relative to the previous one of its kind. An empty
segment says nothing; only 1, 4 or 5 numbers are allowed. -/
def readSeg (l : Nat) (a : Acc) (s : List Char) : Option (List Seg × Acc) :=
  match fields s with
  | some [] => some ([], a)
  | some [c] => some ([⟨l, a.col + c, none⟩], { a with col := a.col + c })
  | some [c, s, ol, oc] =>
    some ([⟨l, a.col + c, some (a.source + s, a.line + ol, a.origCol + oc, none)⟩],
      { a with col := a.col + c, source := a.source + s, line := a.line + ol,
               origCol := a.origCol + oc })
  | some [c, s, ol, oc, n] =>
    some ([⟨l, a.col + c, some (a.source + s, a.line + ol, a.origCol + oc, some (a.name + n))⟩],
      { a with col := a.col + c, source := a.source + s, line := a.line + ol,
               origCol := a.origCol + oc, name := a.name + n })
  | _ => none

/-- Read the segments of line `l`. -/
def readSegs (l : Nat) : Acc → List (List Char) → Option (List Seg × Acc)
  | a, [] => some ([], a)
  | a, s :: ss =>
    match readSeg l a s with
    | none => none
    | some (x, a) =>
      match readSegs l a ss with
      | none => none
      | some (y, a) => some (x ++ y, a)

/-- Read lines, the first of them being line `l`. The generated column starts again at 0 on every
line, the other numbers go on. -/
def readLines : Nat → Acc → List (List Char) → Option (List Seg)
  | _, _, [] => some []
  | l, a, s :: ss =>
    match readSegs l { a with col := 0 } (cut ',' s) with
    | none => none
    | some (x, a) =>
      match readLines (l + 1) a ss with
      | none => none
      | some y => some (x ++ y)

/-- Read a mappings string. -/
def decode (s : List Char) : Option (List Seg) := readLines 1 {} (cut ';' s)

/-- An original position. Sources and names are string numbers, as in the arrays of the map. -/
structure Origin where
  source : Int
  line : Nat
  col : Nat
  name : Option Int
  deriving DecidableEq, Repr

/-- A mapped point: from this generated position on, up to the next point of the line, characters
come from `origin`. -/
structure Point where
  line : Nat
  col : Nat
  origin : Option Origin
  deriving DecidableEq, Repr

/-- Array element at a decoded index. -/
def at? (l : List Int) (i : Int) : Option Int := if i < 0 then none else l[i.toNat]?

/-- A decoded index or number that has to be natural. -/
def nat? (i : Int) : Option Nat := if i < 0 then none else some i.toNat

/-- Look the indices of a segment up in the arrays; fails if one of them is out of range or a
position is negative. -/
def Seg.resolve (sources names : List Int) (s : Seg) : Option Point :=
  match nat? s.col, s.orig with
  | none, _ => none
  | some c, none => some ⟨s.line, c, none⟩
  | some c, some (si, ol, oc, ni) =>
    match at? sources si, nat? ol, nat? oc with
    | some src, some ol, some oc =>
      match ni with
      | none => some ⟨s.line, c, some ⟨src, ol + 1, oc, none⟩⟩
      | some ni =>
        match at? names ni with
        | none => none
        | some n => some ⟨s.line, c, some ⟨src, ol + 1, oc, some n⟩⟩
    | _, _, _ => none

/-- All or nothing. -/
def resolveAll (sources names : List Int) : List Seg → Option (List Point)
  | [] => some []
  | s :: ss =>
    match s.resolve sources names, resolveAll sources names ss with
    | some p, some ps => some (p :: ps)
    | _, _ => none

/-- What a map says, `none` if it is malformed. -/
def points (sources names : List Int) (mappings : List Char) : Option (List Point) :=
  match decode mappings with
  | none => none
  | some ss => resolveAll sources names ss

/-- The last point of the line at or before a column. -/
def pointAt : List Point → Nat → Nat → Option Point
  | [], _, _ => none
  | p :: ps, l, c =>
    match pointAt ps l c with
    | some q => some q
    | none => if p.line = l ∧ p.col ≤ c then some p else none

/-- Where a generated position comes from. -/
def lookup (ps : List Point) (l c : Nat) : Option Origin := (pointAt ps l c).bind Point.origin

/-- The position reached from `p` after a character. -/
def advance (p : Nat × Nat) (c : Char) : Nat × Nat := if c = '\n' then (p.1 + 1, 0) else (p.1, p.2 + 1)

/-- The position after a text that starts at `p`. -/
def posFrom (p : Nat × Nat) (s : List Char) : Nat × Nat := s.foldl advance p

/-- The position after a text. -/
def posAfter (s : List Char) : Nat × Nat := posFrom (1, 0) s

/-- Every character of a text with what is known of its origin. -/
abbrev Marked := List (Char × Option Origin)

/-- The points attribute every character of the marked text as marked. -/
def Attributes (ps : List Point) (m : Marked) : Prop :=
  ∀ (k : Nat) (c : Char) (o : Option Origin), m[k]? = some (c, o) →
    lookup ps (posAfter ((m.take k).map Prod.fst)).1 (posAfter ((m.take k).map Prod.fst)).2 = o

end WS.Spec
