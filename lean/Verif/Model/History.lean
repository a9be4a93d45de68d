import Verif.Model.Heap
/-! # Call histories

Sequences of calls of the JavaScript classes: constructors, `add`, `replace`, `insert` and reads. -/

namespace WS

/-- The map argument of `SourceMapSource`: plain data, a generator handed over from
`sourceAndMap()`, or both (`src/wasm_api/source_map_source.rs:39-70`, `wasm-api/SourceMapSource.js:22-45`). -/
def SmHolder.Given (h : SmHolder) : Prop := h.data.isSome = true ∨ h.gen.isSome = true

/-- A new `SourceMapSource`: `src/source_map_source.rs:88-132` followed by the setters
(`src/source_map_source.rs:134-160`) as `wasm-api/SourceMapSource.js:47-74` calls them. -/
def Sms.create (value : Str) (valueIdx name : Int) (map : SmHolder) (original : Option Int)
    (inner : Option SmHolder) : Sms :=
  { value, valueIdx, name, map, original, inner, innerApplied := false }

/-- One call.
`new…`: constructors (`wasm-api/{Raw,Original,LineToLineMapped,SourceMap,Prefix,Replace,Concat}Source.js`);
the new object gets the next number. `add`, `replace`, `insert`: `wasm-api/ConcatSource.js`,
`wasm-api/ReplaceSource.js`. The rest are reads. -/
inductive Op where
  | newRaw (v : Str)
  | newOriginal (v : Str) (name valueIdx : Int)
  | newL2l (v : Str) (name original : Int)
  | newSms (v : Str) (valueIdx name : Int) (map : SmHolder) (original : Option Int)
      (inner : Option SmHolder)
  | newPrefix (pre : Str) (child : Src)
  | newReplace (child : Src)
  | newConcat
  | add (i : Nat) (item : Src)
  | replace (i : Nat) (start stop : Int) (text : Str) (ordS ordE : Int)
  | insert (i : Nat) (pos : Int) (text : Str) (ord : Int)
  | source (i : Nat)
  | size (i : Nat)
  | node (i : Nat) (columns module_ : Bool)
  | listMap (i : Nat) (columns module_ : Bool)
  deriving DecidableEq, Repr

/-- Reads change nothing a caller asked to change. -/
def Op.isRead : Op → Bool
  | .source _ | .size _ | .node .. | .listMap .. => true
  | _ => false

/-- What a call returns. -/
inductive Answer where
  | done
  | text (s : Str)
  | size (n : Nat)
  | node (n : SmNode)
  | listMap (m : Slm)

/-- A reference that exists. -/
def Src.valid (h : Heap) : Src → Bool
  | .str _ => true
  | .ref i => i < h.length

/-- One call on the heap. A constructor with a reference to an object that does not exist is
impossible in JavaScript (`dangling`). -/
def Op.run (h : Heap) : Op → M (Answer × Heap)
  | .newRaw v => .ok (.done, h ++ [.raw v])
  | .newOriginal v n i => .ok (.done, h ++ [.original v n i])
  | .newL2l v n o => .ok (.done, h ++ [.l2l v n o])
  | .newSms v vi n m o inner => .ok (.done, h ++ [.sms (Sms.create v vi n m o inner)])
  | .newPrefix p c => if c.valid h then .ok (.done, h ++ [.prefixed p c]) else .error .dangling
  | .newReplace c => if c.valid h then .ok (.done, h ++ [.replace c [] true]) else .error .dangling
  | .newConcat => .ok (.done, h ++ [.concat []])
  | .add i item => (hAdd h i item).map fun h => (.done, h)
  | .replace i s e t o o' => (hReplace h i s e t o o').map fun h => (.done, h)
  | .insert i p t o => (hInsert h i p t o).map fun h => (.done, h)
  | .source i => (apiSource h i).map fun p => (.text p.1, p.2)
  | .size i => (apiSize h i).map fun p => (.size p.1, p.2)
  | .node i c m => (apiNode h i c m).map fun p => (.node p.1, p.2)
  | .listMap i c m => (apiListMap h i c m).map fun p => (.listMap p.1, p.2)

/-- A history from a given heap: the heap at the end, or the first panic (after a wasm trap nothing
is promised). -/
def runFrom : Heap → List Op → M Heap
  | h, [] => .ok h
  | h, op :: ops =>
    match op.run h with
    | .error e => .error e
    | .ok (_, h) => runFrom h ops

/-- A history from the beginning. -/
def run (ops : List Op) : M Heap := runFrom [] ops

end WS
