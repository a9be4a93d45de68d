import Verif.Model.JsWorld
/-!
# Programs that change the arrays of emitted maps in place

The getters of `wasm-api/utils/createStringWithSourceMap.js:53-60,70-82,104-115` hand out the array that the map keeps.
Statements like `map.sources[0] = "x"` or `map.names.push("y")` change that array without calling a setter, so `modified`
(line 43) is not set. Simplified: an array belongs to one map (it is not stored somewhere else and changed there).
-/

namespace WS

/-- The properties that are arrays. -/
inductive AField where
  | sources
  | contents
  | names
  deriving DecidableEq, Repr

def AField.field : AField → JField
  | .sources => .sources
  | .contents => .contents
  | .names => .names

/-- The array that the map keeps and the program knows: handed out by the getter, or assigned
(`createStringWithSourceMap.js:37-40`). -/
def Emitted.kept (e : Emitted) : AField → Option (List JVal)
  | .sources => e.sources
  | .contents => e.contents.join
  | .names => if e.hasNames then e.names else none

/-- The kept array has these entries now. -/
def Emitted.put (e : Emitted) : AField → List JVal → Emitted
  | .sources, l => { e with sources := some l }
  | .contents, l => { e with contents := some (some l) }
  | .names, l => { e with names := some l }

/-- Statements. `edit k f l`: the array that pair `k` keeps for property `f` is changed in place and has the entries `l`
now. -/
inductive EOp where
  | js (op : JOp)
  | edit (k : Nat) (f : AField) (l : List JVal)
  deriving DecidableEq

/-- One statement. Only an array that the program knows can be changed. -/
def EOp.run (w : World) : EOp → Except JErr (JAnswer × World)
  | .js op => op.run w
  | .edit k f l =>
    match w.maps[k]? with
    | none => .error .noObject
    | some e =>
      match e.kept f with
      | none => .error .noObject
      | some _ => .ok (.done, { w with maps := w.maps.set k (e.put f l) })

/-- A program from a given state: what its statements return, and the state after. -/
def World.runEdits : World → List EOp → Except JErr (List JAnswer × World)
  | w, [] => .ok ([], w)
  | w, op :: ops => (op.run w).bind fun p => (p.2.runEdits ops).map fun q => (p.1 :: q.1, q.2)

end WS
