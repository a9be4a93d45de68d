import Verif.Model.JsWorld
import Verif.Model.MapFns
/-!
# The JavaScript classes of list maps: `wasm-api/wasm-source-list-map/*.js`

`SourceListMap`, `CodeNode`, `SourceNode`, `SingleLineNode` and `fromStringWithSourceMap`, exported by
`wasm-api/index.js:17-21`, together with the statements of `Verif/Model/JsWorld.lean`. Nodes and list maps
are copied whenever they are handed to wasm (`src/wasm_api/wasm_containers.rs:111-141`), so an object is
its value.

Simplifications, besides those of `JsWorld.lean`. The map given to `fromStringWithSourceMap` is an
ordinary object. `toStringWithSourceMap` is called with an object as argument; `file` is an ordinary
property of the result (`wasm-api/utils/createStringWithSourceMap.js:47`) and left out.
-/

namespace WS

/-- Exceptions. `null`: "null pointer passed to rust"; `moved`: "Attempt to use a moved value";
`notFunction`: a `TypeError`, the called function does not exist; `noObject` marks a call that
JavaScript refuses because there is no such object or it has no such method. -/
inductive LErr where
  | js (e : JErr)
  | trap (p : Panic)
  | null
  | moved
  | notFunction
  | noObject
  deriving DecidableEq, Repr

/-- An object: the wasm object its `ptr` points to. `dead`: `ptr` is 0; `broken`: `ptr` is not a number
but an object. -/
inductive LVal where
  | dead
  | broken
  | code (s : Str)
  | source (n : LSource)
  | single (n : LSingle)
  | map (m : Slm)
  deriving Repr

/-- The state: that of the other classes and the list-map objects. -/
structure LWorld where
  base : World
  lists : List LVal

/-- At load time. -/
def LWorld.empty : LWorld := ⟨World.empty, []⟩

/-- Generated code given as argument: a string or an object. -/
inductive LArg where
  | str (s : Str)
  | obj (i : Nat)
  deriving DecidableEq, Repr

/-- What is pushed to a `NodeVec`, `wasm-api/wasm-source-list-map/utils.js:14-40` and
`src/wasm_api/wasm_containers.rs:122-140`. The bindings do not check the argument
(`wasm-api/build/webpack_sources.js:392-427`); Rust refuses a null pointer, and an object as pointer
is converted to 0. -/
def LWorld.node (w : LWorld) : LArg → Except LErr LNode
  | .str s => .ok (.str s)
  | .obj i => match w.lists[i]? with
    | none => .error .noObject
    | some .dead => .error .null
    | some .broken => .error .null
    | some (.code s) => .ok (.code s)
    | some (.source n) => .ok (.source n)
    | some (.single n) => .ok (.single n)
    | some (.map m) => .ok (.map m)

/-- The nodes of an array. -/
def LWorld.nodes (w : LWorld) : List LArg → Except LErr (List LNode)
  | [] => .ok []
  | a :: as => (w.node a).bind fun n => (w.nodes as).map (n :: ·)

/-- `StringCache.add(source)`, `StringCache.addUnchecked(originalSource)`, if there is a source:
`SourceListMap.js:33-35`, `:45-47`, `SourceNode.js:12-16`, `SingleLineNode.js:12-16`. -/
def LWorld.names (w : LWorld) (source : Option Str) (original : JVal) :
    Option Int × Option Int × LWorld :=
  match truthy source with
  | none => (none, none, w)
  | some s =>
    let p := w.base.intern (some s)
    let q := p.2.internNew original
    (some p.1, some q.1, { w with base := q.2 })

/-- The list map an object is, for a method call on it; the bindings check the pointer, e.g.
`wasm-api/build/webpack_sources.js:1162-1172`. -/
def LWorld.target (w : LWorld) (i : Nat) : Except LErr Slm :=
  match w.lists[i]? with
  | some (.map m) => .ok m
  | some .dead => .error .moved
  | some .broken => .error .null
  | _ => .error .noObject

/-- A trap. -/
def liftM {α : Type} : M α → Except LErr α
  | .ok a => .ok a
  | .error p => .error (.trap p)

/-- `add`, `wasm-api/wasm-source-list-map/SourceListMap.js:31-41`, with
`src/wasm_api/source_list_map/source_list_map.rs:26-33`. -/
def LWorld.add (w : LWorld) (i : Nat) (a : LArg) (source : Option Str) (original : JVal) :
    Except LErr LWorld :=
  (w.node a).bind fun n =>
    let p := w.names source original
    (p.2.2.target i).bind fun m => (liftM (slmAdd m n p.1 p.2.1)).map fun m' =>
      { p.2.2 with lists := p.2.2.lists.set i (.map m') }

/-- `prepend`, `SourceListMap.js:43-57`, with `source_list_map.rs:35-42`. -/
def LWorld.prepend (w : LWorld) (i : Nat) (a : LArg) (source : Option Str) (original : JVal) :
    Except LErr LWorld :=
  (w.node a).bind fun n =>
    let p := w.names source original
    (p.2.2.target i).bind fun m => (liftM (slmPrepend m n p.1 p.2.1)).map fun m' =>
      { p.2.2 with lists := p.2.2.lists.set i (.map m') }

/-- A new object. -/
def LWorld.put (w : LWorld) (v : LVal) : LWorld := { w with lists := w.lists ++ [v] }

/-- `str::replace` of one character by another. -/
def replaceChar (a b : Char) (s : Str) : Str := s.map fun c => if c = a then b else c

/-- `str::replace` of a pair of different characters. -/
def replacePair (a b : Char) (by_ : Str) : Str → Str
  | [] => []
  | [c] => [c]
  | c :: d :: s =>
    if c = a ∧ d = b then by_ ++ replacePair a b by_ s else c :: replacePair a b by_ (d :: s)

/-- `TestMappingFunction::map`, `src/wasm_api/source_list_map/mapping_functions.rs:12-16`. -/
def wasmTest (s : Str) : Str :=
  replacePair '$' '\n' [] (replacePair '\\' '\n' [' '] (replaceChar ';' '\n' s))

/-- The functions `mapGeneratedCode` knows, `SourceListMap.js:114-119`. -/
inductive MapFn where
  | test
  | identical
  | prefixed (p : Str)
  | replace
  deriving DecidableEq, Repr

/-- The calls of `SourceListMap.js:61-96`, with
`src/wasm_api/source_list_map/source_list_map.rs:53-81`; `none`: the bindings have no
`_sourcelistmap_map_generated_code_replace`. -/
def MapFn.apply : MapFn → Slm → Option Slm
  | .test, m => some (slmMapGenerated (fun (_ : Unit) s => (wasmTest s, ())) () m).1
  | .identical, m => some (wasmIdenticalMap m)
  | .prefixed p, m => some (wasmPrefixMap p m)
  | .replace, _ => none

/-- One statement: of the other classes, or one of the list-map classes. `original` may be
`undefined`, as may `source`. `listMap` is `listMap(options)` of a source
(`wasm-api/SourceAndMapMixin.js:18-26`), `render` is `toStringWithSourceMap`. -/
inductive LOp where
  | js (op : JOp)
  | newCode (s : Str)
  | newSource (s : Str) (source : Option Str) (original : JVal) (line : Nat)
  | newSingle (s : Str) (source : Option Str) (original : JVal) (line : Nat)
  | newEmpty
  | newMap (a : LArg) (source : Option Str) (original : JVal)
  | newArray (as : List LArg)
  | fromString (code : Str) (sources contents names : List JVal) (mappings : Str)
  | listMap (j : Nat) (columns module_ : Bool)
  | add (i : Nat) (a : LArg) (source : Option Str) (original : JVal)
  | prepend (i : Nat) (a : LArg) (source : Option Str) (original : JVal)
  | clone (i : Nat)
  | mapCode (i : Nat) (f : MapFn)
  | toString (i : Nat)
  | render (i : Nat)
  deriving DecidableEq

/-- What a statement returns; `pair k` is the emitted pair number `k`. -/
inductive LAnswer where
  | js (a : JAnswer)
  | done
  | text (s : Str)
  | pair (k : Nat)
  deriving DecidableEq

/-- `startingLine || 1`. -/
def startLine (line : Nat) : Nat := if line = 0 then 1 else line

/-- One statement.
`newCode`: `CodeNode.js:7-12`; without code no wasm object is made. `newSource`: `SourceNode.js:8-30`,
with `src/wasm_api/source_list_map/source_node.rs:12-37`. `newSingle`: `SingleLineNode.js:8-30`; the
function for nodes without source is misspelt (`:24`). `newMap`: `SourceListMap.js:15-28`. `newArray`:
`:18-20`; `ptr` gets the new object instead of its pointer. `fromString`: `fromStringWithSourceMap.js:8-24`
with `src/wasm_api/source_list_map/from_string_with_source_map.rs:6-22`; `names` is not looked at.
`clone`: `CodeNode.js:14-18`, `SourceNode.js:32-36`, `SingleLineNode.js:32-36`; the bindings have no such
functions. `mapCode`: `SourceListMap.js:59-98`; the receiver is moved
(`wasm-api/build/webpack_sources.js:107-153`). `toString`: `:100-102`. `render`: `:104-107`. -/
def LOp.run (w : LWorld) : LOp → Except LErr (LAnswer × LWorld)
  | .js op => match op.run w.base with
    | .error e => .error (.js e)
    | .ok (a, b) => .ok (.js a, { w with base := b })
  | .newCode s => .ok (.done, w.put (if s = [] then .dead else .code s))
  | .newSource s source original line =>
    if s = [] then .ok (.done, w.put .dead)
    else
      let p := w.names source original
      .ok (.done, p.2.2.put (.source (LSource.new s p.1 p.2.1 (startLine line))))
  | .newSingle s source original line =>
    if s = [] then .ok (.done, w.put .dead)
    else if truthy source = none then .error .notFunction
    else
      let p := w.names source original
      .ok (.done, p.2.2.put (.single (LSingle.new s p.1 p.2.1 (startLine line))))
  | .newEmpty => .ok (.done, w.put (.map []))
  | .newMap a source original =>
    if a = .str [] ∧ truthy source = none then .ok (.done, w.put (.map []))
    else ((w.node a).bind fun _ => (w.put (.map [])).add w.lists.length a source original).map fun w =>
      (.done, w)
  | .newArray as => (w.nodes as).map fun _ => (.done, w.put .broken)
  | .fromString code sources contents _ mappings =>
    let p := w.base.internAll sources
    let q := p.2.internAllNew contents
    (liftM (slmFromString code p.1 q.1 mappings)).map fun m =>
      (.done, { w with base := q.2, lists := w.lists ++ [.map m] })
  | .listMap j columns module_ =>
    match w.base.objs[j]? with
    | none => .error .noObject
    | some o =>
      match o.kind with
      | .raw _ => .error .notFunction
      | _ =>
        match w.base.call (.listMap o.ptr columns module_) with
        | .error e => .error (.js e)
        | .ok (.listMap m, b) => .ok (.done, { w with base := b, lists := w.lists ++ [.map m] })
        | .ok _ => .error .noObject
  | .add i a source original => (w.add i a source original).map fun w => (.done, w)
  | .prepend i a source original => (w.prepend i a source original).map fun w => (.done, w)
  | .clone _ => .error .notFunction
  | .mapCode i f =>
    match f.apply [] with
    | none => .error .notFunction
    | some _ => (w.target i).bind fun m =>
      match f.apply m with
      | none => .error .notFunction
      | some m' => .ok (.done, { w with lists := w.lists.set i .dead ++ [.map m'] })
  | .toString i => (w.target i).map fun m => (.text (slmToString m), w)
  | .render i => (w.target i).map fun m =>
    let r := slmToStringWithSourceMap m none
    (.pair w.base.maps.length, { w with base := { w.base with
      maps := w.base.maps ++ [Emitted.new ⟨r.source, some r.map, none⟩ false] } })

/-- A program, up to the first exception. -/
def LWorld.runFrom (w : LWorld) : List LOp → Except LErr LWorld
  | [] => .ok w
  | op :: ops => match op.run w with
    | .error e => .error e
    | .ok (_, w) => w.runFrom ops

/-- A program from the start. -/
def LWorld.run (ops : List LOp) : Except LErr LWorld := LWorld.empty.runFrom ops

end WS
