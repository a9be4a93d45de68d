import Verif.Model.History
import Verif.Model.Js
/-!
# The JavaScript classes: `wasm-api/*.js`, `wasm-api/utils/createStringWithSourceMap.js`

The state of a program that uses the classes: the string table, the wasm heap, the JavaScript objects
with the fields they keep themselves, and the maps handed out by `sourceAndMap`/`map`.

Simplifications. Arguments have the types the classes expect (strings where strings are expected,
finite numbers as positions). `clear()` (`wasm-api/index.js:23-28`) does not occur here: nothing is
freed (see `JsClear.lean`). Arrays that properties hand out are not changed in place. A history stops at
the first exception.
-/

namespace WS

/-- What is put into the string table: a string or `null` (`sources` and `sourcesContent` of a map
may hold `null`). -/
abbrev JVal := Option Str

/-- Exceptions. `trap`: a wasm trap; `moved`: "Attempt to use a moved value" of the generated
bindings (`wasm-api/build/webpack_sources.js`, e.g. lines 980-996); `missing`: "No element indexed by"
(`wasm-api/StringCache.js:30`); `stack`: too much recursion; `noObject` marks a reference to an object
that does not exist, which is impossible in JavaScript. -/
inductive JErr where
  | trap (p : Panic)
  | moved
  | missing
  | stack
  | noObject
  deriving DecidableEq, Repr

/-- An argument that is a string or one of the objects. -/
inductive JSrc where
  | str (s : Str)
  | obj (j : Nat)
  deriving DecidableEq, Repr

/-- The fields kept by the JavaScript objects: `_value` (`wasm-api/RawSource.js:25`,
`OriginalSource.js:18`, `LineToLineMappedSource.js:13`, `SourceMapSource.js:15`), `_originalSource`
(`LineToLineMappedSource.js:16`, `SourceMapSource.js:49`), `_jsSource`, `_jsPrefix`
(`PrefixSource.js:62-63`, `ReplaceSource.js:14`), `children` (`ConcatSource.js:13`). -/
inductive JKind where
  | raw (v : Str)
  | original (v : Str)
  | l2l (v original : Str)
  | sms (v : Str) (original : Option Str)
  | prefixed (pre : Str) (child : JSrc)
  | replace (child : JSrc)
  | concat (children : List JSrc)
  deriving DecidableEq, Repr

/-- An object: the wasm object it points to (`ptr`) and its own fields. -/
structure JObj where
  ptr : Nat
  kind : JKind
  deriving DecidableEq, Repr

/-- `JsStringWithSourceMap`, `src/wasm_api/wasm_containers.rs:8-13`. -/
structure WasmMap where
  s : Str
  map : Option SourceMap
  gen : Option Generator
  deriving DecidableEq, Repr

/-- `JsStringWithSourceMap::map`, `src/wasm_api/wasm_containers.rs:48-53`. -/
def WasmMap.getMap (w : WasmMap) : M (SourceMap × WasmMap) :=
  match w.map with
  | some m => .ok (m, w)
  | none =>
    match w.gen with
    | none => .error .unwrap
    | some g =>
      match g.toSourceMap with
      | .error e => .error e
      | .ok (m, g) => .ok (m, { w with map := some m, gen := some g })

/-- The variables of `createStringWithSourceMap`, `wasm-api/utils/createStringWithSourceMap.js:35-43`.
`wasm` is `none` once the wasm object has been moved (`ptr` is 0); `none` for a cache is
`Types.Null`; `hasNames` is `isNames`. The inner `none` of `contents` is `undefined`. -/
structure Emitted where
  wasm : Option WasmMap
  source : Option Str
  sources : Option (List JVal)
  contents : Option (Option (List JVal))
  mappings : Option Str
  names : Option (List JVal)
  hasNames : Bool
  modified : Bool
  deriving DecidableEq, Repr

/-- Lines 36-43. -/
def Emitted.new (w : WasmMap) (hasNames : Bool) : Emitted :=
  { wasm := some w, source := none, sources := none, contents := none, mappings := none,
    names := none, hasNames, modified := false }

/-- The whole state. `raws`, `boots`: `ptrCache` of `wasm-api/RawSource.js:9` and
`wasm-api/OriginalSource.js:10`. `log` is not in the code: it lists the calls made on the heap. -/
structure World where
  strs : StrTable JVal
  heap : Heap
  log : List Op
  raws : List (Str × Nat)
  boots : List (Nat × Nat)
  objs : List JObj
  maps : List Emitted

/-- The state at load time. -/
def World.empty : World :=
  { strs := StrTable.empty, heap := [], log := [], raws := [], boots := [], objs := [], maps := [] }

/-- `StringCache.add`. -/
def World.intern (w : World) (v : JVal) : Int × World :=
  (((w.strs.add v).1 : Nat), { w with strs := (w.strs.add v).2 })

/-- `StringCache.addUnchecked`. -/
def World.internNew (w : World) (v : JVal) : Int × World :=
  (((w.strs.addUnchecked v).1 : Nat), { w with strs := (w.strs.addUnchecked v).2 })

/-- `array.map(StringCache.add)`. -/
def World.internAll (w : World) : List JVal → List Int × World
  | [] => ([], w)
  | v :: vs =>
    let p := w.intern v
    let q := p.2.internAll vs
    (p.1 :: q.1, q.2)

/-- `array.map(StringCache.addUnchecked)`. -/
def World.internAllNew (w : World) : List JVal → List Int × World
  | [] => ([], w)
  | v :: vs =>
    let p := w.internNew v
    let q := p.2.internAllNew vs
    (p.1 :: q.1, q.2)

/-- A call of a wasm function. -/
def World.call (w : World) (op : Op) : Except JErr (Answer × World) :=
  match op.run w.heap with
  | .error e => .error (.trap e)
  | .ok (a, h) => .ok (a, { w with heap := h, log := w.log ++ [op] })

/-- A constructor call: the new wasm object gets the next number, the new JavaScript object is
appended. -/
def World.create (w : World) (op : Op) (kind : JKind) : Except JErr World :=
  (w.call op).map fun p => { p.2 with objs := w.objs ++ [⟨w.heap.length, kind⟩] }

/-- The object an argument points to, handed to wasm. -/
def World.src (w : World) : JSrc → Except JErr Src
  | .str s => .ok (.str s)
  | .obj j => match w.objs[j]? with
    | some o => .ok (.ref o.ptr)
    | none => .error .noObject

/-- `StringCache.resolveIntArray`; a `null` that was stored and a negative index both give `null`. -/
def World.resolve (w : World) (ids : List Int) : Except JErr (List JVal) :=
  match w.strs.resolve ids with
  | some vs => .ok (vs.map Option.join)
  | none => .error .missing

/-- The map of an emitted pair, computed on demand by the wasm object. -/
def Emitted.data (e : Emitted) : Except JErr (SourceMap × Emitted) :=
  match e.wasm with
  | none => .error .moved
  | some wm =>
    match wm.getMap with
    | .error p => .error (.trap p)
    | .ok (m, wm) => .ok (m, { e with wasm := some wm })

/-- The getter of `sources`, `createStringWithSourceMap.js:53-60`. -/
def Emitted.getSources (w : World) (e : Emitted) : Except JErr (List JVal × Emitted) :=
  match e.sources with
  | some l => .ok (l, e)
  | none => e.data.bind fun p => (w.resolve p.1.sources).map fun l =>
      (l, { p.2 with sources := some l })

/-- The getter of `sourcesContent`, `createStringWithSourceMap.js:70-82`; `none` is `undefined`. -/
def Emitted.getContents (w : World) (e : Emitted) : Except JErr (Option (List JVal) × Emitted) :=
  let show_ : Option (List JVal) → Option (List JVal) := fun c =>
    match c with
    | some (v :: vs) => some (v :: vs)
    | _ => none
  match e.contents with
  | some c => .ok (show_ c, e)
  | none => e.data.bind fun p => (w.resolve p.1.sourcesContent).map fun l =>
      (show_ (some l), { p.2 with contents := some (show_ (some l)) })

/-- The getter of `mappings`, `createStringWithSourceMap.js:92-97`. -/
def Emitted.getMappings (e : Emitted) : Except JErr (Str × Emitted) :=
  match e.mappings with
  | some s => .ok (s, e)
  | none => e.data.map fun p => (p.1.mappings, { p.2 with mappings := some p.1.mappings })

/-- The getter of `names`, `createStringWithSourceMap.js:104-115`; maps without names have no such
property (`undefined`, here the empty list). -/
def Emitted.getNames (w : World) (e : Emitted) : Except JErr (List JVal × Emitted) :=
  if e.hasNames then
    match e.names with
    | some l => .ok (l, e)
    | none => e.data.bind fun p => (w.resolve p.1.names).map fun l =>
        (l, { p.2 with names := some l })
  else .ok ([], e)

/-- The getter of `source`, `createStringWithSourceMap.js:135-140`. -/
def Emitted.getSource (e : Emitted) : Except JErr (Str × Emitted) :=
  match e.source with
  | some s => .ok (s, e)
  | none =>
    match e.wasm with
    | none => .error .moved
    | some wm => .ok (wm.s, { e with source := some wm.s })

/-- The properties of an emitted pair. -/
inductive JField where
  | source
  | sources
  | contents
  | mappings
  | names
  deriving DecidableEq, Repr

/-- The value of a property. -/
inductive JFieldVal where
  | text (s : Str)
  | list (l : List JVal)
  | undefined
  deriving DecidableEq, Repr

/-- A read of a property. -/
def Emitted.get (w : World) (e : Emitted) : JField → Except JErr (JFieldVal × Emitted)
  | .source => e.getSource.map fun p => (.text p.1, p.2)
  | .sources => (e.getSources w).map fun p => (.list p.1, p.2)
  | .contents => (e.getContents w).map fun p =>
      (match p.1 with | some l => .list l | none => .undefined, p.2)
  | .mappings => e.getMappings.map fun p => (.text p.1, p.2)
  | .names => (e.getNames w).map fun p => (if e.hasNames then .list p.1 else .undefined, p.2)

/-- An assignment to a property. -/
inductive JAssign where
  | source (s : Str)
  | sources (l : List JVal)
  | contents (l : List JVal)
  | mappings (s : Str)
  | names (l : List JVal)
  deriving DecidableEq, Repr

/-- The setters, `createStringWithSourceMap.js:61-64,83-86,98-101,116-119,141-143`. Assigning `names`
to a map without that getter makes an ordinary property: the map then has names, but is not
marked. -/
def Emitted.set (e : Emitted) : JAssign → Emitted
  | .source s => { e with source := some s }
  | .sources l => { e with sources := some l, modified := true }
  | .contents l => { e with contents := some (some l), modified := true }
  | .mappings s => { e with mappings := some s, modified := true }
  | .names l => if e.hasNames then { e with names := some l, modified := true }
      else { e with names := some l, hasNames := true }

/-- A source map given to `SourceMapSource`: an ordinary object (missing arrays are empty, lines
30-35) or an emitted map. -/
inductive MapArg where
  | plain (sources contents names : List JVal) (mappings : Str)
  | emitted (k : Nat)
  deriving DecidableEq, Repr

/-- The data of a `SourceMap`, `src/wasm_api/source_map_source.rs:47-59`. -/
def SourceMap.data (m : SourceMap) : SmData := ⟨m.sources, m.sourcesContent, m.names, m.mappings⟩

/-- What is handed to wasm for an ordinary object, `wasm-api/SourceMapSource.js:30-44,58-72`. -/
def World.giveData (w : World) (sources contents names : List JVal) (mappings : Str) :
    SmHolder × World :=
  let p := w.internAll sources
  let q := p.2.internAllNew contents
  let r := q.2.internAll names
  ({ data := some ⟨p.1, q.1, r.1, mappings⟩, gen := none }, r.2)

/-- What is handed to wasm for a map, `wasm-api/SourceMapSource.js:22-45,54-73` and
`src/wasm_api/source_map_source.rs:39-70,76-107`. An emitted map that still has its wasm object and
was not modified is moved (lines 23-29, 55-56); otherwise its properties are read, in the order of
lines 31-35. -/
def World.give (w : World) : MapArg → Except JErr (SmHolder × World)
  | .plain ss cs ns m => .ok (w.giveData ss cs ns m)
  | .emitted k =>
    match w.maps[k]? with
    | none => .error .noObject
    | some e =>
      match (if e.modified then none else e.wasm) with
      | some wm =>
        .ok ({ data := wm.map.map SourceMap.data, gen := wm.gen },
          { w with maps := w.maps.set k { e with wasm := none } })
      | none =>
        (e.getSources w).bind fun a =>
        (a.2.getContents w).bind fun b =>
        b.2.getMappings.bind fun c =>
        (c.2.getNames w).map fun d =>
          { w with maps := w.maps.set k d.2 }.giveData a.1 (b.1.getD []) d.1 c.1

/-- The inner map, if there is one, `wasm-api/SourceMapSource.js:53-74`. -/
def World.giveInner (w : World) : Option MapArg → Except JErr (Option SmHolder × World)
  | none => .ok (none, w)
  | some a => (w.give a).map fun i => (some i.1, i.2)

/-- `Math.floor((x % 1) * 16)`: the remainder of JavaScript has the sign of `x`. -/
def jsOrder (x : Rat) : Int := ((x - (if 0 ≤ x then x.floor else x.ceil)) * 16).floor

/-- One statement of a program.
`sourceAndMap` also stands for `map`, which hands out the map of such a pair
(`wasm-api/SourceAndMapMixin.js:28-73`). -/
inductive JOp where
  | newRaw (v : Str)
  | newOriginal (v name : Str)
  | newL2l (v name original : Str)
  | newSms (v name : Str) (map : MapArg) (original : Option Str) (inner : Option MapArg)
  | newPrefix (pre : Str) (child : JSrc)
  | newReplace (child : JSrc)
  | newConcat (items : List JSrc)
  | add (j : Nat) (item : JSrc)
  | replace (j : Nat) (start stop : Rat) (text : Str)
  | insert (j : Nat) (pos : Rat) (text : Str)
  | source (j : Nat)
  | size (j : Nat)
  | sourceAndMap (j : Nat) (columns module_ : Bool)
  | hash (j : Nat)
  | get (k : Nat) (f : JField)
  | set (k : Nat) (a : JAssign)
  deriving DecidableEq

/-- What a statement returns. `pair k` is the emitted pair number `k`; `textOnly` is the pair of a
`RawSource`, whose map is `null`; `chunks` are the strings given to `hash.update`. -/
inductive JAnswer where
  | done
  | text (s : Str)
  | size (n : Nat)
  | textOnly (s : Str)
  | pair (k : Nat)
  | chunks (l : List Str)
  | field (v : JFieldVal)
  deriving DecidableEq

/-- `ConcatSource.add`, `wasm-api/ConcatSource.js:20-58`. `item.isConcatSource` (line 51) is never
defined, so the item itself is pushed. -/
def World.addItem (w : World) (j : Nat) (item : JSrc) : Except JErr World :=
  match w.objs[j]? with
  | some ⟨ptr, .concat cs⟩ =>
    (w.src item).bind fun s => (w.call (.add ptr s)).map fun p =>
      { p.2 with objs := w.objs.set j ⟨ptr, .concat (cs ++ [item])⟩ }
  | _ => .error .noObject

/-- The loop of the constructor, `wasm-api/ConcatSource.js:14-16`. -/
def World.addItems (w : World) (j : Nat) : List JSrc → Except JErr World
  | [] => .ok w
  | i :: is => (w.addItem j i).bind fun w => w.addItems j is

/-- The kinds whose `source()` and `size()` are answered by the object itself, with the value:
`RawSource.js:28-34`, `OriginalSource.js:45-51`, `LineToLineMappedSource.js:26-32`,
`SourceMapSource.js:78-84`. -/
def JKind.value : JKind → Option Str
  | .raw v | .original v | .l2l v _ | .sms v _ => some v
  | _ => none

/-- `source()`: the four leaf kinds above, otherwise `_source()` (`ConcatSource.js:60-62`,
`PrefixSource.js:67-69`, `ReplaceSource.js:88-90`). -/
def World.readSource (w : World) (j : Nat) : Except JErr (Str × World) :=
  match w.objs[j]? with
  | none => .error .noObject
  | some o =>
    match o.kind.value with
    | some v => .ok (v, w)
    | none => (w.call (.source o.ptr)).bind fun p =>
        match p.1 with
        | .text s => .ok (s, p.2)
        | _ => .error .noObject

/-- `size()`: `_value.length` for the leaf kinds, otherwise `_size()`. -/
def World.readSize (w : World) (j : Nat) : Except JErr (Nat × World) :=
  match w.objs[j]? with
  | none => .error .noObject
  | some o =>
    match o.kind.value with
    | some v => .ok (utf16Len v, w)
    | none => (w.call (.size o.ptr)).bind fun p =>
        match p.1 with
        | .size n => .ok (n, p.2)
        | _ => .error .noObject

/-- The loop of `ConcatSource.js:70-74`; also one item, `PrefixSource.js:76-77`. `f` is `updateHash` of
an object. -/
def World.hashEach (f : World → Nat → Except JErr (List Str × World)) :
    World → List JSrc → Except JErr (List Str × World)
  | w, [] => .ok ([], w)
  | w, .str s :: rest => (World.hashEach f w rest).map fun p => (s :: p.1, p.2)
  | w, .obj j :: rest =>
    (f w j).bind fun p => (World.hashEach f p.2 rest).map fun q => (p.1 ++ q.1, q.2)

/-- `updateHash`: the strings given to `hash.update`, in order. `RawSource.js:40-42`,
`OriginalSource.js:53-55`, `LineToLineMappedSource.js:34-37`, `SourceMapSource.js:86-91`,
`PrefixSource.js:75-80`, `ReplaceSource.js:104-107`, `ConcatSource.js:68-75`. The first argument
bounds the recursion depth. -/
def World.hashObj : Nat → World → Nat → Except JErr (List Str × World)
  | 0, _, _ => .error .stack
  | fuel + 1, w, j =>
    match w.objs[j]? with
    | none => .error .noObject
    | some o =>
      match o.kind with
      | .raw v => .ok ([v], w)
      | .original v => .ok ([v], w)
      | .l2l v orig => .ok ([v, orig], w)
      | .sms v orig => .ok (v :: orig.toList, w)
      | .prefixed pre c =>
        (World.hashEach (World.hashObj fuel) w [c]).map fun p => (p.1 ++ [pre], p.2)
      | .replace _ => (w.readSource j).map fun p => ([p.1], p.2)
      | .concat cs => World.hashEach (World.hashObj fuel) w cs

/-- `sourceAndMap(options)`, `wasm-api/SourceAndMapMixin.js:51-73`, for the classes that have it;
`RawSource.js:44-49` answers itself. The node path hands out a generator
(`wasm-api/wasm-source-map/SourceNode.js:46-49`), the list path a finished map without names
(`wasm-api/wasm-source-list-map/SourceListMap.js:104-107`). -/
def World.emit (w : World) (j : Nat) (columns module_ : Bool) : Except JErr (JAnswer × World) :=
  match w.objs[j]? with
  | none => .error .noObject
  | some o =>
    match o.kind with
    | .raw v => .ok (.textOnly v, w)
    | _ =>
      if columns then
        (w.call (.node o.ptr columns module_)).bind fun p =>
          match p.1 with
          | .node n =>
            let r := n.toStringWithGenerator none none
            .ok (.pair w.maps.length, { p.2 with
              maps := w.maps ++ [Emitted.new ⟨r.1, none, some r.2⟩ true] })
          | _ => .error .noObject
      else
        (w.call (.listMap o.ptr columns module_)).bind fun p =>
          match p.1 with
          | .listMap m =>
            let r := slmToStringWithSourceMap m none
            .ok (.pair w.maps.length, { p.2 with
              maps := w.maps ++ [Emitted.new ⟨r.source, some r.map, none⟩ false] })
          | _ => .error .noObject

/-- `new RawSource(value)`, `wasm-api/RawSource.js:15-26`: equal values share their wasm object. -/
def World.newRaw (w : World) (v : Str) : Except JErr World :=
  match w.raws.lookup v with
  | some p => .ok { w with objs := w.objs ++ [⟨p, .raw v⟩] }
  | none => (w.create (.newRaw v) (.raw v)).map fun w' =>
      { w' with raws := (v, w.heap.length) :: w'.raws }

/-- `"webpack/bootstrap"`, `wasm-api/OriginalSource.js:22`. -/
def bootstrap : Str := "webpack/bootstrap".toList

/-- `new OriginalSource(value, name)`, `wasm-api/OriginalSource.js:16-43`. -/
def World.newOriginal (w : World) (v name : Str) : Except JErr World :=
  let p := w.internNew (some v)
  let q := p.2.intern (some name)
  if name = bootstrap then
    match q.2.boots.lookup p.1.toNat with
    | some ptr => .ok { q.2 with objs := q.2.objs ++ [⟨ptr, .original v⟩] }
    | none => (q.2.create (.newOriginal v q.1 p.1) (.original v)).map fun w' =>
        { w' with boots := (p.1.toNat, q.2.heap.length) :: w'.boots }
  else q.2.create (.newOriginal v q.1 p.1) (.original v)

/-- `new LineToLineMappedSource(value, name, originalSource)`,
`wasm-api/LineToLineMappedSource.js:11-24`. -/
def World.newL2l (w : World) (v name original : Str) : Except JErr World :=
  let p := w.intern (some name)
  let q := p.2.internNew (some original)
  q.2.create (.newL2l v p.1 q.1) (.l2l v original)

/-- `if (originalSource)`, `wasm-api/SourceMapSource.js:47`: the empty string counts as absent. -/
def truthy : Option Str → Option Str
  | some (c :: s) => some (c :: s)
  | _ => none

/-- `new SourceMapSource(…)`, `wasm-api/SourceMapSource.js:13-76`; the wasm constructor and the two
setters are one call here. -/
def World.newSms (w : World) (v name : Str) (map : MapArg) (original : Option Str)
    (inner : Option MapArg) : Except JErr World :=
  let p := w.internNew (some v)
  let q := p.2.intern (some name)
  (q.2.give map).bind fun m =>
    let o : Option Int × World := match truthy original with
      | some s => (some (m.2.internNew (some s)).1, (m.2.internNew (some s)).2)
      | none => (none, m.2)
    (o.2.giveInner inner).bind fun i =>
      i.2.create (.newSms v p.1 q.1 m.1 o.1 i.1) (.sms v (truthy original))

/-- One statement. -/
def JOp.run (w : World) : JOp → Except JErr (JAnswer × World)
  | .newRaw v => (w.newRaw v).map fun w => (.done, w)
  | .newOriginal v n => (w.newOriginal v n).map fun w => (.done, w)
  | .newL2l v n o => (w.newL2l v n o).map fun w => (.done, w)
  | .newSms v n m o i => (w.newSms v n m o i).map fun w => (.done, w)
  | .newPrefix p c =>
    (w.src c).bind fun s => (w.create (.newPrefix p s) (.prefixed p c)).map fun w => (.done, w)
  | .newReplace c =>
    (w.src c).bind fun s => (w.create (.newReplace s) (.replace c)).map fun w => (.done, w)
  | .newConcat items =>
    (w.create .newConcat (.concat [])).bind fun w' =>
      (w'.addItems w.objs.length items).map fun w => (.done, w)
  | .add j item => (w.addItem j item).map fun w => (.done, w)
  | .replace j a b t =>
    match w.objs[j]? with
    | some ⟨ptr, .replace _⟩ =>
      (w.call (.replace ptr a.floor b.floor t (jsOrder a) (jsOrder b))).map fun p => (.done, p.2)
    | _ => .error .noObject
  | .insert j a t =>
    match w.objs[j]? with
    | some ⟨ptr, .replace _⟩ =>
      (w.call (.insert ptr a.floor t (jsOrder a))).map fun p => (.done, p.2)
    | _ => .error .noObject
  | .source j => (w.readSource j).map fun p => (.text p.1, p.2)
  | .size j => (w.readSize j).map fun p => (.size p.1, p.2)
  | .sourceAndMap j c m => w.emit j c m
  | .hash j => (World.hashObj (w.objs.length + 1) w j).map fun p => (.chunks p.1, p.2)
  | .get k f =>
    match w.maps[k]? with
    | none => .error .noObject
    | some e => (e.get w f).map fun p => (.field p.1, { w with maps := w.maps.set k p.2 })
  | .set k a =>
    match w.maps[k]? with
    | none => .error .noObject
    | some e => .ok (.done, { w with maps := w.maps.set k (e.set a) })

/-- A program from a given state. -/
def World.runFrom : World → List JOp → Except JErr World
  | w, [] => .ok w
  | w, op :: ops => (op.run w).bind fun p => p.2.runFrom ops

/-- A program from the beginning. -/
def World.run (ops : List JOp) : Except JErr World := World.empty.runFrom ops

end WS
