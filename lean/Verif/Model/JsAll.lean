import Verif.Model.JsCache
import Verif.Model.JsNode
/-!
# All the JavaScript classes in one program

Programs that use the sources, `CachedSource`s, source nodes and list maps together:
the statements of `JsCache.lean`, `JsNode.lean` and `JsList.lean`, on one string table, one wasm heap and one
list of emitted pairs, and `node` and `listMap` of a `CachedSource`. The other three files say what
is simplified.
-/

namespace WS

/-- The state. -/
structure AWorld where
  base : World
  caches : List CacheObj
  nodes : List (Option SmNode)
  lists : List LVal

/-- At load time. -/
def AWorld.empty : AWorld := ⟨World.empty, [], [], []⟩

/-- Sources and `CachedSource`s. -/
def AWorld.c (w : AWorld) : CWorld := ⟨w.base, w.caches⟩

/-- Sources and source nodes. -/
def AWorld.n (w : AWorld) : NWorld := ⟨w.base, w.nodes⟩

/-- Sources and list maps. -/
def AWorld.l (w : AWorld) : LWorld := ⟨w.base, w.lists⟩

/-- One statement. `cachedNode` and `cachedList` are `node(options)` and `listMap(options)` of a
`CachedSource`. -/
inductive AOp where
  | c (op : COp)
  | n (op : NOp)
  | l (op : LOp)
  | cachedNode (k : Nat) (o : Option JOpts)
  | cachedList (k : Nat) (o : Option JOpts)
  deriving DecidableEq

/-- What a statement returns. -/
inductive AAnswer where
  | c (a : CReply)
  | l (a : LAnswer)
  deriving DecidableEq

/-- A statement on sources and `CachedSource`s. -/
def AWorld.inC (w : AWorld) (op : COp) : Except LErr (AAnswer × AWorld) :=
  match op.run w.c with
  | .error e => .error (.js e)
  | .ok (a, v) => .ok (.c a, { w with base := v.base, caches := v.caches })

/-- A statement on source nodes. -/
def AWorld.inN (w : AWorld) (op : NOp) : Except LErr (AAnswer × AWorld) :=
  (op.run w.n).map fun p => (.l p.1, { w with base := p.2.base, nodes := p.2.nodes })

/-- A statement on list maps. -/
def AWorld.inL (w : AWorld) (op : LOp) : Except LErr (AAnswer × AWorld) :=
  (op.run w.l).map fun p => (.l p.1, { w with base := p.2.base, lists := p.2.lists })

/-- One statement. `cachedNode`, `cachedList`: `wasm-api/CachedSource.js:14-22`; the method is there if the
wrapped object has it, and passes the options on, so that the object at the end is asked. -/
def AOp.run (w : AWorld) : AOp → Except LErr (AAnswer × AWorld)
  | .c op => w.inC op
  | .n op => w.inN op
  | .l op => w.inL op
  | .cachedNode k o => match w.c.under (.cached k) with
    | none => .error .noObject
    | some j => w.inN (.node j (wantsColumns o) (wantsModule o))
  | .cachedList k o => match w.c.under (.cached k) with
    | none => .error .noObject
    | some j => w.inL (.listMap j (wantsColumns o) (wantsModule o))

/-- A program from a given state. -/
def AWorld.runFrom : AWorld → List AOp → Except LErr AWorld
  | w, [] => .ok w
  | w, op :: ops => (op.run w).bind fun p => p.2.runFrom ops

/-- A program from the beginning. -/
def AWorld.run (ops : List AOp) : Except LErr AWorld := AWorld.empty.runFrom ops

end WS
