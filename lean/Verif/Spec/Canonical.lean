import Verif.Spec.SourceMap
/-! # Writing a source map (no reference to the model)

Which segments a map needs, and how the format writes them. -/

namespace WS.Spec

/-- A number in base 32, least significant digit first; all digits but the last are marked by adding
32. -/
def writeNat (n : Nat) : List Char :=
  if n < 32 then [alphabet.getD n 'A'] else alphabet.getD (n % 32 + 32) 'A' :: writeNat (n / 32)

/-- A signed number: the lowest bit is the sign. -/
def writeInt (i : Int) : List Char := writeNat (if i < 0 then 2 * i.natAbs + 1 else 2 * i.natAbs)

/-- The numbers of a segment, each relative to the previous one of its kind. -/
def Seg.write (a : Acc) (s : Seg) : List Char × Acc :=
  match s.orig with
  | none => (writeInt (s.col - a.col), { a with col := s.col })
  | some (si, ol, oc, none) =>
    (writeInt (s.col - a.col) ++ writeInt (si - a.source) ++ writeInt (ol - a.line) ++ writeInt (oc - a.origCol),
      { a with col := s.col, source := si, line := ol, origCol := oc })
  | some (si, ol, oc, some ni) =>
    (writeInt (s.col - a.col) ++ writeInt (si - a.source) ++ writeInt (ol - a.line) ++ writeInt (oc - a.origCol) ++
        writeInt (ni - a.name),
      { col := s.col, source := si, line := ol, origCol := oc, name := ni })

/-- Segments from line `l` on: `;` ends a line, `,` stands between segments of a line. -/
def writeSegs : Nat → Bool → Acc → List Seg → List Char
  | _, _, _, [] => []
  | l, more, a, s :: ss =>
    if s.line = l then (if more then [','] else []) ++ (s.write a).1 ++ writeSegs l true (s.write a).2 ss
    else List.replicate (s.line - l) ';' ++ (s.write { a with col := 0 }).1 ++
      writeSegs s.line true (s.write { a with col := 0 }).2 ss

/-- A mappings string. -/
def encode (ss : List Seg) : List Char := writeSegs 1 false {} ss

/-- The places in a text where the origin changes, with what it changes to. Lines begin without an origin.
`last` is the origin before position `p`. -/
def changes {α : Type} [DecidableEq α] : Option α → Nat × Nat → List (Char × Option α) →
    List ((Nat × Nat) × Option α)
  | _, _, [] => []
  | last, p, (c, o) :: m =>
    (if o = last then [] else [(p, o)]) ++ changes (if c = '\n' then none else o) (advance p c) m

/-- A list without what is in `seen` and without repetitions, in the order of first occurrences. -/
def firsts {β : Type} [DecidableEq β] : List β → List β → List β
  | _, [] => []
  | seen, b :: l => if b ∈ seen then firsts seen l else b :: firsts (b :: seen) l

end WS.Spec
