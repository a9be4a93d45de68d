import Verif.Spec.SourceMap
import Verif.Model.SmNode
/-! # What a tree of source nodes stands for -/

namespace WS
open Spec

/-- Where the strings directly below a source node come from: known if the node has a source and a
position. -/
def originOf (pos : Option (Nat × Nat)) (source name : Option Int) : Option Origin :=
  match pos, source with
  | some (l, c), some s => some ⟨s, l, c, name⟩
  | _, _ => none

mutual
  /-- The contents kept in a tree, in the order in which they are visited: those below a node come
  before its own. -/
  def SmNode.cts : SmNode → List (Int × Int)
    | .str _ => []
    | .node _ _ _ cs ch => SmNode.ctsList ch ++ cs
  /-- See `SmNode.cts`. -/
  def SmNode.ctsList : List SmNode → List (Int × Int)
    | [] => []
    | c :: cs => SmNode.cts c ++ SmNode.ctsList cs
end

mutual
  /-- The strings of a tree from left to right with their origins. -/
  def SmNode.leaves : SmNode → List (Str × Option Origin)
    | .str s => [(s, none)]
    | .node pos src name _ ch => SmNode.leavesList (originOf pos src name) ch
  /-- The strings of a list of children; those directly in the list come from `o`. -/
  def SmNode.leavesList (o : Option Origin) : List SmNode → List (Str × Option Origin)
    | [] => []
    | .str s :: rest => (s, o) :: SmNode.leavesList o rest
    | .node pos src name cs ch :: rest =>
      SmNode.leaves (.node pos src name cs ch) ++ SmNode.leavesList o rest
end

/-- Every character with the origin of its string. -/
def Spec.marked (ls : List (Str × Option Origin)) : Marked :=
  ls.flatMap fun l => l.1.map fun c => (c, l.2)

/-- The characters of a tree with their origins. -/
def SmNode.marks (n : SmNode) : Marked := marked n.leaves

/-- The text of a tree. -/
def SmNode.text (n : SmNode) : Str := (n.leaves.map Prod.fst).flatten

/-- Original lines count from 1 (and fit a 32-bit `usize`), and no empty string has an origin. -/
def Spec.LeafOk (l : Str × Option Origin) : Prop :=
  ∀ o, l.2 = some o → l.1 ≠ [] ∧ 1 ≤ o.line ∧ o.line ≤ 4294967296

instance (l : Str × Option Origin) : Decidable (LeafOk l) := by
  unfold LeafOk
  rcases l with ⟨s, o⟩
  cases o with
  | none => exact isTrue (fun _ h => by cases h)
  | some o =>
    exact decidable_of_iff (s ≠ [] ∧ 1 ≤ o.line ∧ o.line ≤ 4294967296)
      ⟨fun h o' e => (by cases e; exact h), fun h => h o rfl⟩

end WS

namespace WS.Spec

/-- An edit of a marked text: the characters `start ≤ k < stop` are replaced by `text`. -/
structure MarkedEdit where
  start : Int
  stop : Int
  text : Marked
  deriving DecidableEq, Repr

/-- Apply edits listed from left to right, beginning at character `k` (compare `Spec.splice`). -/
def spliceM (s : Marked) : Nat → List MarkedEdit → Marked
  | k, [] => s.drop k
  | k, e :: es => (s.take e.start.toNat).drop k ++ e.text ++ spliceM s e.stop.toNat es

/-- Apply edits from right to left, each to what lies left of the one before (compare
`Spec.applyRight`). -/
def applyRightM : Marked → List MarkedEdit → Marked
  | rem, [] => rem
  | rem, e :: es =>
    applyRightM ((rem.take e.stop.toNat).take e.start.toNat) es ++ e.text ++ rem.drop e.stop.toNat

/-- A text all of whose characters come from `o`. -/
def uniform (o : Option Origin) (s : List Char) : Marked := s.map fun c => (c, o)

end WS.Spec

namespace WS.Spec

/-- An origin without its name. -/
def Origin.unnamed (o : Origin) : Origin := { o with name := none }

/-- The origin of the text an edit puts in: that of the first character removed; if none is removed,
that of the character before the place (of the first character at the beginning of the text). The
name is not kept. -/
def editOrigin (m : Marked) (start stop : Int) : Option Origin :=
  ((if start.toNat < min stop.toNat m.length then m[start.toNat]? else m[start.toNat - 1]?).bind
    Prod.snd).map Origin.unnamed

/-- If the edit removes a character, the character before it is unattributed or has the same
origin. -/
def CleanStart (m : Marked) (start stop : Int) : Prop :=
  start.toNat < min stop.toNat m.length → start.toNat = 0 ∨
    (m[start.toNat - 1]?.bind Prod.snd) = none ∨
    (m[start.toNat - 1]?.bind Prod.snd) = (m[start.toNat]?.bind Prod.snd)

instance (m : Marked) (start stop : Int) : Decidable (CleanStart m start stop) := by
  unfold CleanStart; infer_instance

end WS.Spec
