import Verif.Model.JsWorld
/-!
# CachedSource in programs: `wasm-api/CachedSource.js`

`Verif/Model/Js.lean` models `CachedSource` around a source that answers its reads in a fixed way. Here it is
one of the classes of a program: it wraps any object, also another `CachedSource`, and is itself given to
`ConcatSource`, `PrefixSource` and `ReplaceSource`, which ask it for `type` and `ptr` only
(`wasm-api/ConcatSource.js:24-46`, `PrefixSource.js:15-60`, `ReplaceSource.js:20-47`); the bindings
take `ptr` of whatever they are given (e.g. `wasm-api/build/webpack_sources.js:471-476`).

Simplifications, besides those of `JsWorld.lean`. Options are `undefined` or an object with at most the
two properties `columns` and `module`, boolean and in this order. `node` and `listMap` are in
`JsAll.lean`.
-/

namespace WS

/-- Options that are an object; `none` is a missing property. -/
structure JOpts where
  columns : Option Bool
  module_ : Option Bool
  deriving DecidableEq, Repr

/-- `!(options.columns === false)` with `options = options || {}`, `wasm-api/SourceAndMapMixin.js:29-30`. -/
def wantsColumns (o : Option JOpts) : Bool := (o.bind JOpts.columns) != some false

/-- `!(options.module === false)`, `wasm-api/SourceAndMapMixin.js:13`. -/
def wantsModule (o : Option JOpts) : Bool := (o.bind JOpts.module_) != some false

/-- What a `CachedSource` wraps: an object of another class, or a `CachedSource`. -/
inductive CRef where
  | obj (j : Nat)
  | cached (k : Nat)
  deriving DecidableEq, Repr

/-- The fields, `wasm-api/CachedSource.js:9-12`. `under` is the object that `ptr`, `type` and `updateHash`
(lines 24-33, 87-89) end up at; `_source` is never assigned again. `maps` is keyed by
`JSON.stringify(options)`, which tells options apart (`undefined` becomes the property `undefined`);
a map is the number of an emitted pair, or `null`. -/
structure CacheObj where
  wrapped : CRef
  under : Nat
  source : Option Str
  size : Option Nat
  maps : List (Option JOpts × Option Nat)
  deriving DecidableEq, Repr

/-- The state: that of the other classes and the `CachedSource`s. -/
structure CWorld where
  base : World
  caches : List CacheObj

/-- At load time. -/
def CWorld.empty : CWorld := ⟨World.empty, []⟩

/-- An assignment to fields. -/
def CWorld.update (w : CWorld) (k : Nat) (f : CacheObj → CacheObj) : CWorld :=
  { w with caches := w.caches.modify k f }

/-- The object at the end of `_source`. -/
def CWorld.under (w : CWorld) : CRef → Option Nat
  | .obj j => w.base.objs[j]?.map fun _ => j
  | .cached k => w.caches[k]?.map CacheObj.under

/-- `source()`, `CachedSource.js:35-39`. The first argument bounds the depth of wrapping. -/
def CWorld.readSource : Nat → CWorld → CRef → Except JErr (Str × CWorld)
  | 0, _, _ => .error .stack
  | _ + 1, w, .obj j => (w.base.readSource j).map fun p => (p.1, { w with base := p.2 })
  | n + 1, w, .cached k =>
    match w.caches[k]? with
    | none => .error .noObject
    | some c =>
      match c.source with
      | some s => .ok (s, w)
      | none => (CWorld.readSource n w c.wrapped).map fun p =>
          (p.1, p.2.update k fun c => { c with source := some p.1 })

/-- `size()`, lines 41-46. -/
def CWorld.readSize : Nat → CWorld → CRef → Except JErr (Nat × CWorld)
  | 0, _, _ => .error .stack
  | _ + 1, w, .obj j => (w.base.readSize j).map fun p => (p.1, { w with base := p.2 })
  | n + 1, w, .cached k =>
    match w.caches[k]? with
    | none => .error .noObject
    | some c =>
      match c.size with
      | some s => .ok (s, w)
      | none =>
        match c.source with
        | some s => .ok (utf16Len s, w.update k fun c => { c with size := some (utf16Len s) })
        | none => (CWorld.readSize n w c.wrapped).map fun p =>
            (p.1, p.2.update k fun c => { c with size := some p.1 })

/-- The map of an answer of `sourceAndMap` or `map`. -/
def JAnswer.map? : JAnswer → Option Nat
  | .pair k => some k
  | _ => none

/-- `map(options)`, lines 80-85: the wrapped object is asked without options. For the other classes
`wasm-api/SourceAndMapMixin.js:28-49` and `RawSource.js:36-38`. -/
def CWorld.readMap : Nat → CWorld → CRef → Option JOpts → Except JErr (Option Nat × CWorld)
  | 0, _, _, _ => .error .stack
  | _ + 1, w, .obj j, o => (w.base.emit j (wantsColumns o) (wantsModule o)).map fun p =>
      (p.1.map?, { w with base := p.2 })
  | n + 1, w, .cached k, o =>
    match w.caches[k]? with
    | none => .error .noObject
    | some c =>
      let key : Option JOpts := some (o.getD ⟨none, none⟩)
      match c.maps.lookup key with
      | some m => .ok (m, w)
      | none => (CWorld.readMap n w c.wrapped none).map fun p =>
          (p.1, p.2.update k fun c => { c with maps := (key, p.1) :: c.maps })

/-- `sourceAndMap(options)` of an object of another class, of which `source` is read:
`CachedSource.js:71-72`. -/
def World.both (w : World) (j : Nat) (columns module_ : Bool) :
    Except JErr ((Str × Option Nat) × World) :=
  (w.emit j columns module_).bind fun p =>
    match p.1 with
    | .textOnly v => .ok ((v, none), p.2)
    | .pair k =>
      match p.2.maps[k]? with
      | none => .error .noObject
      | some e => e.getSource.map fun q => ((q.1, some k), { p.2 with maps := p.2.maps.set k q.2 })
    | _ => .error .noObject

/-- `sourceAndMap(options)`, lines 48-78. -/
def CWorld.readBoth : Nat → CWorld → CRef → Option JOpts → Except JErr ((Str × Option Nat) × CWorld)
  | 0, _, _, _ => .error .stack
  | _ + 1, w, .obj j, o => (w.base.both j (wantsColumns o) (wantsModule o)).map fun p =>
      (p.1, { w with base := p.2 })
  | n + 1, w, .cached k, o =>
    match w.caches[k]? with
    | none => .error .noObject
    | some c =>
      match c.source, c.maps.lookup o with
      | some s, some m => .ok ((s, m), w)
      | some s, none => (CWorld.readMap n w c.wrapped o).map fun p =>
          ((s, p.1), p.2.update k fun c => { c with maps := (o, p.1) :: c.maps })
      | none, some m => (CWorld.readSource n w c.wrapped).map fun p =>
          ((p.1, m), p.2.update k fun c => { c with source := some p.1 })
      | none, none => (CWorld.readBoth n w c.wrapped o).map fun p =>
          (p.1, p.2.update k fun c => { c with source := some p.1.1, maps := (o, p.1.2) :: c.maps })

/-- An argument: a string, an object of another class, or a `CachedSource`. -/
inductive CArg where
  | str (s : Str)
  | ref (r : CRef)
  deriving DecidableEq, Repr

/-- What other objects see of an argument. -/
def CWorld.arg (w : CWorld) : CArg → Except JErr JSrc
  | .str s => .ok (.str s)
  | .ref r => match w.under r with
    | some j => .ok (.obj j)
    | none => .error .noObject

/-- Of several arguments. -/
def CWorld.args (w : CWorld) : List CArg → Except JErr (List JSrc)
  | [] => .ok []
  | a :: as => (w.arg a).bind fun x => (w.args as).map (x :: ·)

/-- One statement: of the other classes without a `CachedSource`, or one with it. The last five are
reads of `CachedSource`s. -/
inductive COp where
  | js (op : JOp)
  | newCached (r : CRef)
  | newPrefix (pre : Str) (a : CArg)
  | newReplace (a : CArg)
  | newConcat (as : List CArg)
  | add (j : Nat) (a : CArg)
  | source (k : Nat)
  | size (k : Nat)
  | map (k : Nat) (o : Option JOpts)
  | both (k : Nat) (o : Option JOpts)
  | hash (k : Nat)
  deriving DecidableEq

/-- What a statement returns. -/
inductive CReply where
  | js (a : JAnswer)
  | text (s : Str)
  | size (n : Nat)
  | map (m : Option Nat)
  | both (s : Str) (m : Option Nat)
  deriving DecidableEq

/-- A statement of the other classes. -/
def CWorld.js (w : CWorld) (op : JOp) : Except JErr (CReply × CWorld) :=
  (op.run w.base).map fun p => (.js p.1, { w with base := p.2 })

/-- One statement. `newCached`: `CachedSource.js:6-25`. -/
def COp.run (w : CWorld) : COp → Except JErr (CReply × CWorld)
  | .js op => w.js op
  | .newCached r => match w.under r with
    | none => .error .noObject
    | some j => .ok (.js .done, { w with caches := w.caches ++ [⟨r, j, none, none, []⟩] })
  | .newPrefix p a => (w.arg a).bind fun c => w.js (.newPrefix p c)
  | .newReplace a => (w.arg a).bind fun c => w.js (.newReplace c)
  | .newConcat as => (w.args as).bind fun cs => w.js (.newConcat cs)
  | .add j a => (w.arg a).bind fun c => w.js (.add j c)
  | .source k => (w.readSource (w.caches.length + 1) (.cached k)).map fun p => (.text p.1, p.2)
  | .size k => (w.readSize (w.caches.length + 1) (.cached k)).map fun p => (.size p.1, p.2)
  | .map k o => (w.readMap (w.caches.length + 1) (.cached k) o).map fun p => (.map p.1, p.2)
  | .both k o => (w.readBoth (w.caches.length + 1) (.cached k) o).map fun p => (.both p.1.1 p.1.2, p.2)
  | .hash k => match w.under (.cached k) with
    | none => .error .noObject
    | some j => w.js (.hash j)

/-- A program from a given state. -/
def CWorld.runFrom : CWorld → List COp → Except JErr CWorld
  | w, [] => .ok w
  | w, op :: ops => (op.run w).bind fun p => p.2.runFrom ops

/-- A program from the beginning. -/
def CWorld.run (ops : List COp) : Except JErr CWorld := CWorld.empty.runFrom ops

end WS
