import Verif.Model.History
import Verif.Proofs.Replace
/-! # The reads without sharing

`Tree` is what an object graph looks like from one of its objects when sharing is forgotten. The
functions below are the reads of `Verif/Model/Heap.lean` on such a tree; `Verif/Proofs/Unfold.lean`
proves that the reads on the heap compute them. -/

namespace WS

/-- A source with everything below it. `replace` holds its calls in call order
(`src/source.rs:16-25` and the seven structures cited at `Obj`). -/
inductive Tree where
  | str (s : Str)
  | raw (v : Str)
  | original (v : Str) (name valueIdx : Int)
  | l2l (v : Str) (name original : Int)
  | sms (s : Sms)
  | prefixed (pre : Str) (t : Tree)
  | replace (t : Tree) (calls : List Call)
  | concat (ts : List Tree)

mutual
  /-- `Source::node` on a tree, `src/source.rs:70-82` and the `node` methods. -/
  def Tree.node (columns module_ : Bool) : Tree → M SmNode
    | .str _ => .error .unreachable
    | .raw v => .ok (rawNode v)
    | .original v n i => .ok (originalNode columns v n i)
    | .l2l v n o => .ok (l2lNode v n o)
    | .sms s => s.node.map Prod.fst
    | .prefixed p t => (t.node columns module_).map (prefixNode p)
    | .replace t cs => (t.node columns module_).bind fun n => replaceNode n (sortedCalls cs)
    | .concat ts => (Tree.nodes columns module_ ts).map (SmNode.mkVec none none none)
  /-- The children of a concatenation, `src/concat_source.rs:66-76`. -/
  def Tree.nodes (columns module_ : Bool) : List Tree → M (List SmNode)
    | [] => .ok []
    | .str s :: ts => (Tree.nodes columns module_ ts).map (SmNode.str s :: ·)
    | t :: ts => (t.node columns module_).bind fun n =>
        (Tree.nodes columns module_ ts).map (n :: ·)
end

mutual
  /-- `Source::list_map` on a tree, `src/source.rs:56-68` and the `list_map` methods. -/
  def Tree.listMap (columns module_ : Bool) : Tree → M Slm
    | .str _ => .error .unreachable
    | .raw v => .ok (rawListMap v)
    | .original v n i => .ok (originalListMap v n i)
    | .l2l v n o => .ok (l2lListMap v n o)
    | .sms s => (s.listMap module_).map Prod.fst
    | .prefixed p t => (t.listMap columns module_).map (prefixListMap p)
    | .replace t cs => (t.listMap columns module_).map fun m => replaceListMap m (sortedCalls cs)
    | .concat ts => (Tree.listMaps columns module_ ts).map (concatMaps [])
  /-- The children of a concatenation, `src/concat_source.rs:47-57`. -/
  def Tree.listMaps (columns module_ : Bool) : List Tree → M (List (Str ⊕ Slm))
    | [] => .ok []
    | .str s :: ts => (Tree.listMaps columns module_ ts).map (.inl s :: ·)
    | t :: ts => (t.listMap columns module_).bind fun n =>
        (Tree.listMaps columns module_ ts).map (.inr n :: ·)
end

end WS
