import Verif.Model.JsNode
/-!
# Programs that call `clear()`: `wasm-api/index.js:23-28`, `wasm-api/WasmObjectPool.js`

`clear()` empties the string table and the two pointer caches and frees the wasm objects in the pool.
Everything is in the pool (`RawSource.js:23`, `OriginalSource.js:33,41`, `LineToLineMappedSource.js:23`,
`SourceMapSource.js:75`, `PrefixSource.js:64`, `ReplaceSource.js:49`, `ConcatSource.js:17`,
`utils/createStringWithSourceMap.js:45`) but objects that took their pointer from a cache.
`free()` sets `ptr` to 0 (`build/webpack_sources.js:338-342` and the other classes), so that the methods
of the generated classes throw "Attempt to use a moved value".

Objects are numbered from the beginning of the program, also across `clear()`; so are emitted pairs.
Objects made since the last `clear()` are in a `World`, the others are listed with their own fields.
The wasm heap is empty after `clear()`: what was in it can be reached through dangling pointers only.
-/

namespace WS

/-- Exceptions. `null`: "null pointer passed to rust" of wasm-bindgen, when an object with `ptr` 0 is handed
to wasm; `freed`: memory that was freed is used, nothing is known about what happens. -/
inductive KErr where
  | js (e : JErr)
  | null
  | freed
  deriving DecidableEq, Repr

/-- An object made before the last `clear()`. `dangling`: it was not in the pool and keeps its pointer. -/
structure OldObj where
  kind : JKind
  dangling : Bool
  deriving DecidableEq, Repr

/-- The state: objects made before the last `clear()`, and what was made since (all emitted pairs are kept
in `base`). -/
structure KWorld where
  old : List OldObj
  base : World

/-- The state at load time. -/
def KWorld.empty : KWorld := ⟨[], World.empty⟩

/-- Numbers of objects in a `World`, as numbers in the program. -/
def JSrc.lift (n : Nat) : JSrc → JSrc
  | .str s => .str s
  | .obj j => .obj (n + j)

/-- The fields of an object, with numbers in the program. -/
def JKind.lift (n : Nat) : JKind → JKind
  | .raw v => .raw v
  | .original v => .original v
  | .l2l v o => .l2l v o
  | .sms v o => .sms v o
  | .prefixed p c => .prefixed p (c.lift n)
  | .replace c => .replace (c.lift n)
  | .concat cs => .concat (cs.map (JSrc.lift n))

/-- The objects as they are left by `clear()`; `seen`: the pointers of the objects before. An object that has
the pointer of an earlier one took it from a cache (`RawSource.js:17-24`, `OriginalSource.js:23-34`). -/
def oldObjs (n : Nat) (seen : List Nat) : List JObj → List OldObj
  | [] => []
  | o :: os => ⟨o.kind.lift n, seen.contains o.ptr⟩ :: oldObjs n (o.ptr :: seen) os

/-- `clear()`, `wasm-api/index.js:23-28`. -/
def KWorld.clear (w : KWorld) : KWorld :=
  { old := w.old ++ oldObjs w.old.length [] w.base.objs
    base := { World.empty with maps := w.base.maps.map fun e => { e with wasm := none } } }

/-- The number in `base`, if the object was made since the last `clear()`. -/
def lowerNum (n j : Nat) : Option Nat := if n ≤ j then some (j - n) else none

def JSrc.lower (n : Nat) : JSrc → Option JSrc
  | .str s => some (.str s)
  | .obj j => (lowerNum n j).map .obj

/-- A statement whose objects were all made since the last `clear()`. -/
def JOp.lower (n : Nat) : JOp → Option JOp
  | .newPrefix p c => (c.lower n).map (.newPrefix p)
  | .newReplace c => (c.lower n).map .newReplace
  | .newConcat items => (items.mapM (JSrc.lower n)).map .newConcat
  | .add j item => (lowerNum n j).bind fun j => (item.lower n).map (.add j)
  | .replace j a b t => (lowerNum n j).map fun j => .replace j a b t
  | .insert j a t => (lowerNum n j).map fun j => .insert j a t
  | .source j => (lowerNum n j).map .source
  | .size j => (lowerNum n j).map .size
  | .sourceAndMap j c m => (lowerNum n j).map fun j => .sourceAndMap j c m
  | .hash j => (lowerNum n j).map .hash
  | op => some op

/-- `updateHash` of the items of an old object, as `World.hashEach`. -/
def oldHashEach (f : Nat → Except KErr (List Str)) : List JSrc → Except KErr (List Str)
  | [] => .ok []
  | .str s :: rest => (oldHashEach f rest).map fun l => s :: l
  | .obj j :: rest => (f j).bind fun l => (oldHashEach f rest).map fun l' => l ++ l'

/-- `updateHash` of an old object, as `World.hashObj`; the `source()` of a `ReplaceSource` throws. -/
def oldHash (old : List OldObj) : Nat → Nat → Except KErr (List Str)
  | 0, _ => .error (.js .stack)
  | fuel + 1, j =>
    match old[j]? with
    | none => .error (.js .noObject)
    | some o =>
      match o.kind with
      | .raw v => .ok [v]
      | .original v => .ok [v]
      | .l2l v orig => .ok [v, orig]
      | .sms v orig => .ok (v :: orig.toList)
      | .prefixed pre c => (oldHashEach (oldHash old fuel) [c]).map fun l => l ++ [pre]
      | .replace _ => .error (.js .moved)
      | .concat cs => oldHashEach (oldHash old fuel) cs

/-- Handing an object to wasm: what happens with the first old one. -/
def handOld (old : List OldObj) : List JSrc → KErr
  | [] => .js .noObject
  | .str _ :: rest => handOld old rest
  | .obj j :: rest =>
    match old[j]? with
    | none => handOld old rest
    | some o => if o.dangling then .freed else .null

/-- A statement with old objects. Leaves answer `source()`, `size()` and `updateHash()` with their own fields
(`JKind.value`); a method of a freed wasm object throws. Only `RawSource`s can be dangling, whose methods do
not use the wasm object: the cache of `OriginalSource` is asked for an index that was just added. -/
def KWorld.runOld (w : KWorld) : JOp → Except KErr JAnswer
  | .newPrefix _ c => .error (handOld w.old [c])
  | .newReplace c => .error (handOld w.old [c])
  | .newConcat items => .error (handOld w.old items)
  | .add j item => .error (if j < w.old.length then .js .moved else handOld w.old [item])
  | .source j =>
    match w.old[j]?.bind (·.kind.value) with
    | some v => .ok (.text v)
    | none => .error (.js .moved)
  | .size j =>
    match w.old[j]?.bind (·.kind.value) with
    | some v => .ok (.size (utf16Len v))
    | none => .error (.js .moved)
  | .sourceAndMap j _ _ =>
    match w.old[j]? with
    | some ⟨.raw v, _⟩ => .ok (.textOnly v)
    | _ => .error (.js .moved)
  | .hash j => (oldHash w.old (w.old.length + 1) j).map .chunks
  | _ => .error (.js .moved)

/-- Statements. -/
inductive KOp where
  | js (op : JOp)
  | clear
  deriving DecidableEq

/-- One statement. -/
def KOp.run (w : KWorld) : KOp → Except KErr (JAnswer × KWorld)
  | .clear => .ok (.done, w.clear)
  | .js op =>
    match op.lower w.old.length with
    | some op =>
      match op.run w.base with
      | .ok (a, b) => .ok (a, { w with base := b })
      | .error e => .error (.js e)
    | none => (w.runOld op).map fun a => (a, w)

/-- A program from a given state, with what its statements return. -/
def KWorld.runFrom : KWorld → List KOp → Except KErr (List JAnswer × KWorld)
  | w, [] => .ok ([], w)
  | w, op :: ops => (op.run w).bind fun p => (p.2.runFrom ops).map fun q => (p.1 :: q.1, q.2)

/-- `clear()` in a program with nodes: nodes are not in the pool (`wasm-api/wasm-source-map/SourceNode.js:10-27`,
`wasm-api/SourceAndMapMixin.js:8-16`) and keep their wasm objects. Sources are numbered anew. -/
def NWorld.clear (w : NWorld) : NWorld := { w with base := (KWorld.clear ⟨[], w.base⟩).base }

/-- A program from the beginning. -/
def KWorld.run (ops : List KOp) : Except KErr (List JAnswer × KWorld) := KWorld.empty.runFrom ops

end WS
