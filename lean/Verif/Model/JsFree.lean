import Verif.Model.JsClear
/-!
# Programs that call `free()` of sources: `wasm-api/build/webpack_sources.js:164-168` and the other classes

`free()` sets `ptr` to 0 and drops the wasm object (`__wbg_…_free`). The Rust objects are reference-counted
(`Rc`, `get_raw` of `src/wasm_api/*.rs`), so what was built from the object keeps what it needs; nothing is taken from
the caches of pointers (`RawSource.js:10`, `OriginalSource.js:10`). Methods of the generated classes throw "Attempt to
use a moved value" if `ptr` is 0; handing an object with `ptr` 0 to wasm throws "null pointer passed to rust", and so
does a second `free()`.
-/

namespace WS

/-- The state. `gone`: objects with `ptr` 0; `lost`: pointers to wasm objects that were dropped. -/
structure FWorld where
  base : World
  gone : List Nat
  lost : List Nat

/-- The state at load time. -/
def FWorld.empty : FWorld := ⟨World.empty, [], []⟩

/-- The same exception. -/
def liftErr {α : Type} : Except JErr α → Except KErr α
  | .ok a => .ok a
  | .error e => .error (.js e)

/-- The wasm object of an object that has a pointer. -/
def FWorld.reach (w : FWorld) (j : Nat) : Except KErr Unit :=
  match w.base.objs[j]? with
  | none => .ok ()
  | some o => if w.lost.contains o.ptr then .error .freed else .ok ()

/-- A method of the generated classes, `wasm-api/build/webpack_sources.js:460-476` and the others. -/
def FWorld.use (w : FWorld) (j : Nat) : Except KErr Unit :=
  if w.gone.contains j then .error (.js .moved) else w.reach j

/-- An object handed to wasm, `wasm-api/build/webpack_sources.js:475`. -/
def FWorld.hand (w : FWorld) : JSrc → Except KErr Unit
  | .str _ => .ok ()
  | .obj j => if w.gone.contains j then .error .null else w.reach j

/-- `ConcatSource.add`, `wasm-api/ConcatSource.js:20-58`. -/
def FWorld.addItem (w : FWorld) (j : Nat) (item : JSrc) : Except KErr FWorld :=
  (w.use j).bind fun _ => (w.hand item).bind fun _ =>
    (liftErr (w.base.addItem j item)).map fun b => { w with base := b }

/-- The loop of the constructor, `wasm-api/ConcatSource.js:14-16`. -/
def FWorld.addItems (w : FWorld) (j : Nat) : List JSrc → Except KErr FWorld
  | [] => .ok w
  | i :: is => (w.addItem j i).bind fun w => w.addItems j is

/-- Whether `source()` and `size()` are answered by the object itself (`JKind.value`). -/
def FWorld.answers (w : FWorld) (j : Nat) : Bool := ((w.base.objs[j]?).bind (·.kind.value)).isSome

/-- `source()`. -/
def FWorld.readSource (w : FWorld) (j : Nat) : Except KErr (Str × FWorld) :=
  (if w.answers j then .ok () else w.use j).bind fun _ =>
    (liftErr (w.base.readSource j)).map fun p => (p.1, { w with base := p.2 })

/-- `hash.update` of several items, as `World.hashEach`. -/
def FWorld.hashEach (f : FWorld → Nat → Except KErr (List Str × FWorld)) :
    FWorld → List JSrc → Except KErr (List Str × FWorld)
  | w, [] => .ok ([], w)
  | w, .str s :: rest => (FWorld.hashEach f w rest).map fun p => (s :: p.1, p.2)
  | w, .obj j :: rest =>
    (f w j).bind fun p => (FWorld.hashEach f p.2 rest).map fun q => (p.1 ++ q.1, q.2)

/-- `updateHash`, as `World.hashObj`. It is answered by the JavaScript objects, only `ReplaceSource` uses wasm
(`ReplaceSource.js:104-107`). -/
def FWorld.hashObj : Nat → FWorld → Nat → Except KErr (List Str × FWorld)
  | 0, _, _ => .error (.js .stack)
  | fuel + 1, w, j =>
    match w.base.objs[j]? with
    | none => .error (.js .noObject)
    | some o =>
      match o.kind with
      | .raw v => .ok ([v], w)
      | .original v => .ok ([v], w)
      | .l2l v orig => .ok ([v, orig], w)
      | .sms v orig => .ok (v :: orig.toList, w)
      | .prefixed pre c =>
        (FWorld.hashEach (FWorld.hashObj fuel) w [c]).map fun p => (p.1 ++ [pre], p.2)
      | .replace _ => (w.readSource j).map fun p => ([p.1], p.2)
      | .concat cs => FWorld.hashEach (FWorld.hashObj fuel) w cs

/-- What is looked at before the wasm part of a statement: the receiver, or what is handed over.
`RawSource.sourceAndMap` (`RawSource.js:44-49`) does not use wasm. -/
def FWorld.check (w : FWorld) : JOp → Except KErr Unit
  | .newPrefix _ c => w.hand c
  | .newReplace c => w.hand c
  | .replace j _ _ _ => w.use j
  | .insert j _ _ => w.use j
  | .source j => if w.answers j then .ok () else w.use j
  | .size j => if w.answers j then .ok () else w.use j
  | .sourceAndMap j _ _ =>
    match w.base.objs[j]? with
    | some ⟨_, .raw _⟩ => .ok ()
    | _ => w.use j
  | _ => .ok ()

/-- Statements. -/
inductive FOp where
  | js (op : JOp)
  | free (j : Nat)
  deriving DecidableEq

/-- One statement; `free()` returns nothing. -/
def FOp.run (w : FWorld) : FOp → Except KErr (List JAnswer × FWorld)
  | .free j =>
    match w.base.objs[j]? with
    | none => .error (.js .noObject)
    | some o =>
      if w.gone.contains j then .error .null
      else if w.lost.contains o.ptr then .error .freed
      else .ok ([], { w with gone := j :: w.gone, lost := o.ptr :: w.lost })
  | .js (.newConcat items) =>
    (liftErr (w.base.create .newConcat (.concat []))).bind fun b =>
      ({ w with base := b }.addItems w.base.objs.length items).map fun w => ([.done], w)
  | .js (.add j item) => (w.addItem j item).map fun w => ([.done], w)
  | .js (.hash j) => (FWorld.hashObj (w.base.objs.length + 1) w j).map fun p => ([.chunks p.1], p.2)
  | .js op => (w.check op).bind fun _ => (liftErr (op.run w.base)).map fun p => ([p.1], { w with base := p.2 })

/-- A program from a given state, with what its statements return. -/
def FWorld.runFrom : FWorld → List FOp → Except KErr (List JAnswer × FWorld)
  | w, [] => .ok ([], w)
  | w, op :: ops => (op.run w).bind fun p => (p.2.runFrom ops).map fun q => (p.1 ++ q.1, q.2)

/-- A program from the beginning. -/
def FWorld.run (ops : List FOp) : Except KErr (List JAnswer × FWorld) := FWorld.empty.runFrom ops

end WS
