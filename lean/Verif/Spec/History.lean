import Verif.Model.History
import Verif.Spec.Edit
/-! # What a call history means

Only the list of calls is looked at; nothing here refers to objects in memory. -/

namespace WS.Spec

/-- Is the call a constructor? -/
def isNew : Op → Bool
  | .newRaw _ | .newOriginal .. | .newL2l .. | .newSms .. | .newPrefix .. | .newReplace _
  | .newConcat => true
  | _ => false

/-- The constructor calls, in order: object `k` was made by the `k`-th of them. -/
def created (ops : List Op) : List Op := ops.filter isNew

/-- Items of a `ConcatSource` after a history given latest call first: an `add` of an item that is
itself a `ConcatSource` contributes that one's items at that moment. -/
def itemsRev : List Op → Nat → List Src
  | [], _ => []
  | .add k (.str s) :: before, i =>
    if k = i then itemsRev before i ++ [.str s] else itemsRev before i
  | .add k (.ref j) :: before, i =>
    if k = i then
      if (created before.reverse)[j]? = some .newConcat then itemsRev before i ++ itemsRev before j
      else itemsRev before i ++ [.ref j]
    else itemsRev before i
  | _ :: before, i => itemsRev before i

/-- Items of the `ConcatSource` number `i` after a history. -/
def items (ops : List Op) (i : Nat) : List Src := itemsRev ops.reverse i

/-- A request made to a `ReplaceSource`: replace the characters `start ≤ k < stop`. `ordS`, `ordE`
are the fractional parts of the positions in sixteenths. -/
structure Request where
  start : Int
  ordS : Int
  stop : Int
  ordE : Int
  text : List Char
  deriving DecidableEq, Repr

/-- The request made by a call, if it is one to object `i`. `replace(a, b, t)` names the characters
`a..=b`; `insert(p, t)` names none. -/
def requestOf (i : Nat) : Op → Option Request
  | .replace k s e t o o' => if k = i then some ⟨s, o, e + 1, o', t⟩ else none
  | .insert k p t o => if k = i then some ⟨p, o, p, o, t⟩ else none
  | _ => none

/-- The requests made to object `i`, in call order. -/
def requests (ops : List Op) (i : Nat) : List Request := ops.filterMap (requestOf i)

/-- The edit a request with whole positions asks for. -/
def Request.edit (r : Request) : Edit := ⟨r.start, r.stop, r.text⟩

/-- `source()` of `src` succeeds with `s`. -/
def ReadsAs (h : Heap) : Src → List Char → Prop
  | .str x, s => x = s
  | .ref j, s => ∃ h', apiSource h j = .ok (s, h')

/-- `source()` of each item succeeds, with the texts `ss` in order. -/
def ReadAll (h : Heap) : List Src → List (List Char) → Prop
  | [], [] => True
  | c :: cs, s :: ss => ReadsAs h c s ∧ ReadAll h cs ss
  | _, _ => False

end WS.Spec

namespace WS

/-- What an object refers to (`src/prefix_source.rs:55-58`, `src/replace_source.rs:11-16`,
`src/concat_source.rs:8-10`). -/
def Obj.children : Obj → List Src
  | .prefixed _ c => [c]
  | .replace c _ _ => [c]
  | .concat cs => cs
  | _ => []

/-- `src` is object `i` or contains it, directly or indirectly. -/
inductive Spec.Contains (h : Heap) (i : Nat) : Src → Prop where
  | self : Contains h i (.ref i)
  | step {j : Nat} {o : Obj} {c : Src} : h[j]? = some o → c ∈ o.children → Contains h i c →
      Contains h i (.ref j)

end WS
