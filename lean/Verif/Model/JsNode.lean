import Verif.Model.JsList
/-!
# The JavaScript class of source nodes: `wasm-api/wasm-source-map/SourceNode.js`

The nodes handed out by `node(options)` (`wasm-api/SourceAndMapMixin.js:8-16`) and those made with
`new SourceNode(line, column, source, chunks)`, together with the statements of
`Verif/Model/JsWorld.lean`.

Simplifications, besides those of `JsWorld.lean`. Lines and columns are natural numbers. A chunk is a
string, a node, or an array of these: arrays, nested or not, are added item by item
(`SourceNode.js:30-33`), so the argument is a list. `toStringWithSourceMap` is called with an object as
argument; `file` is an ordinary property of the result and left out. `free` is not called.
-/

namespace WS

/-- The state: that of the other classes and the nodes; `none`: moved, `ptr` is 0. -/
structure NWorld where
  base : World
  nodes : List (Option SmNode)

/-- At load time. -/
def NWorld.empty : NWorld := ⟨World.empty, []⟩

/-- What is added to a node: a string or a node. -/
inductive NItem where
  | str (s : Str)
  | node (i : Nat)
  deriving DecidableEq, Repr

/-- `add` of a string or a node, `wasm-api/wasm-source-map/SourceNode.js:34-37`, with
`wasm-api/build/webpack_sources.js:1755-1776`, `src/wasm_api/source_map/source_node.rs:31-37` and
`src/source_map/source_node.rs:37-51`. The added node is moved into the other one; a node added to
itself has its pointer taken away before it is passed. -/
def NWorld.addItem (w : NWorld) (i : Nat) (x : NItem) : Except LErr NWorld :=
  match w.nodes[i]? with
  | some none => .error .moved
  | some (some (.node pos src name cs ch)) =>
    match x with
    | .str s => .ok { w with nodes := w.nodes.set i (some (.node pos src name cs (addStrChild ch s))) }
    | .node j =>
      match w.nodes[j]? with
      | some none => .error .moved
      | some (some n) =>
        if j = i then .error .null
        else .ok { w with
          nodes := (w.nodes.set j none).set i (some (.node pos src name cs (ch ++ [n]))) }
      | none => .error .noObject
  | _ => .error .noObject

/-- `add` of an array, `SourceNode.js:30-33`. -/
def NWorld.addItems (w : NWorld) (i : Nat) : List NItem → Except LErr NWorld
  | [] => .ok w
  | x :: xs => (w.addItem i x).bind fun w => w.addItems i xs

/-- One statement: of the other classes, or one of the nodes. `node` is `node(options)` of a source,
`render` is `toStringWithSourceMap`. -/
inductive NOp where
  | js (op : JOp)
  | newNode (line col : Nat) (source : Option Str) (items : List NItem)
  | node (j : Nat) (columns module_ : Bool)
  | add (i : Nat) (items : List NItem)
  | render (i : Nat)
  deriving DecidableEq

/-- One statement.
`newNode`: `SourceNode.js:10-27` with `src/wasm_api/source_map/source_node.rs:14-29`; without a source
the position is not passed, numbers become `u32`. `node`: `wasm-api/SourceAndMapMixin.js:8-16`;
`RawSource` has no such method. `render`: `SourceNode.js:46-49` with
`src/wasm_api/source_map/source_node.rs:39-43`. -/
def NOp.run (w : NWorld) : NOp → Except LErr (LAnswer × NWorld)
  | .js op => match op.run w.base with
    | .error e => .error (.js e)
    | .ok (a, b) => .ok (.js a, { w with base := b })
  | .newNode line col source items =>
    let p : Option (Nat × Nat) × Option Int × World := match truthy source with
      | none => (none, none, w.base)
      | some s => (some (line % 4294967296, col % 4294967296), some (w.base.intern (some s)).1,
          (w.base.intern (some s)).2)
    ((NWorld.mk p.2.2 (w.nodes ++ [some (.node p.1 p.2.1 none [] [])])).addItems w.nodes.length
      items).map fun w => (.done, w)
  | .node j columns module_ =>
    match w.base.objs[j]? with
    | none => .error .noObject
    | some o =>
      match o.kind with
      | .raw _ => .error .notFunction
      | _ =>
        match w.base.call (.node o.ptr columns module_) with
        | .error e => .error (.js e)
        | .ok (.node n, b) => .ok (.done, ⟨b, w.nodes ++ [some n]⟩)
        | .ok _ => .error .noObject
  | .add i items => (w.addItems i items).map fun w => (.done, w)
  | .render i =>
    match w.nodes[i]? with
    | none => .error .noObject
    | some none => .error .moved
    | some (some n) =>
      let r := n.toStringWithGenerator none none
      .ok (.pair w.base.maps.length, { w with base := { w.base with
        maps := w.base.maps ++ [Emitted.new ⟨r.1, none, some r.2⟩ true] } })

/-- A program, up to the first exception. -/
def NWorld.runFrom (w : NWorld) : List NOp → Except LErr NWorld
  | [] => .ok w
  | op :: ops => match op.run w with
    | .error e => .error e
    | .ok (_, w) => w.runFrom ops

/-- A program from the start. -/
def NWorld.run (ops : List NOp) : Except LErr NWorld := NWorld.empty.runFrom ops

end WS
