import Verif.Model.Text
/-!
# The JavaScript side: `wasm-api/StringCache.js`, `wasm-api/CachedSource.js`

A thrown exception is `none`.
-/

namespace WS

/-- `array` and `set`, `wasm-api/StringCache.js:3-4`. The elements may be any values with an equality
(`Map` compares keys); `set` keeps the entries made by `set.set`. -/
structure StrTable (α : Type) where
  array : List α
  set : List (α × Nat)
  deriving Repr

/-- The table at load time, lines 3-4. -/
def StrTable.empty {α : Type} : StrTable α := ⟨[], []⟩

/-- `indexOf`, lines 43-45. -/
def StrTable.indexOf {α : Type} [DecidableEq α] (t : StrTable α) (s : α) : Option Nat := t.set.lookup s

/-- `add`, lines 6-14. -/
def StrTable.add {α : Type} [DecidableEq α] (t : StrTable α) (s : α) : Nat × StrTable α :=
  match t.indexOf s with
  | some i => (i, t)
  | none => (t.array.length, ⟨t.array ++ [s], (s, t.array.length) :: t.set⟩)

/-- `addUnchecked`, lines 17-21. -/
def StrTable.addUnchecked {α : Type} (t : StrTable α) (s : α) : Nat × StrTable α :=
  (t.array.length, ⟨t.array ++ [s], t.set⟩)

/-- `at`, lines 24-31: `some none` is `null`, `none` is the exception. -/
def StrTable.at {α : Type} (t : StrTable α) (i : Int) : Option (Option α) :=
  if i < 0 then some none
  else match t.array[i.toNat]? with
    | some s => some (some s)
    | none => none

/-- `resolveIntArray`, lines 34-40. -/
def StrTable.resolve {α : Type} (t : StrTable α) : List Int → Option (List (Option α))
  | [] => some []
  | i :: is =>
    match t.at i with
    | none => none
    | some s => (t.resolve is).map (s :: ·)

/-- `clear`, lines 48-51. -/
def StrTable.clear {α : Type} (_ : StrTable α) : StrTable α := ⟨[], []⟩

/-- The calls that change the table. -/
inductive StrOp (α : Type) where
  | add (s : α)
  | addUnchecked (s : α)
  | clear
  deriving DecidableEq, Repr

/-- One call: what it returns and the table after it. -/
def StrTable.step {α : Type} [DecidableEq α] (t : StrTable α) : StrOp α → Option Nat × StrTable α
  | .add s => ((t.add s).1, (t.add s).2)
  | .addUnchecked s => ((t.addUnchecked s).1, (t.addUnchecked s).2)
  | .clear => (none, t.clear)

/-- A history of calls. -/
def StrTable.run {α : Type} [DecidableEq α] (t : StrTable α) : List (StrOp α) → StrTable α
  | [] => t
  | op :: ops => (t.step op).2.run ops

/-- The property `length` of a JavaScript string: UTF-16 code units. -/
def utf16Len (s : Str) : Nat := (s.map fun c => if c.val.toNat < 0x10000 then 1 else 2).sum

/-! ## `wasm-api/CachedSource.js` -/

/-- The values passed as options. `falsy` is `!options`, `empty` is `{}`, `key` is the property name
made from `JSON.stringify(options)` (for `undefined` it is the property named `undefined`). -/
structure OptKind where
  Opt : Type
  undef : Opt
  empty : Opt
  falsy : Opt → Bool
  key : Opt → Str

/-- The wrapped source, as the answers to its reads. `Map` is whatever `map` returns; `length` is the
property `length` of the JavaScript string. -/
structure Wrapped (K : OptKind) (Text Map : Type) where
  source : Text
  size : Nat
  map : K.Opt → Map
  sourceAndMap : K.Opt → Text × Map
  length : Text → Nat

/-- The fields `_cachedSource`, `_cachedSize`, `_cachedMaps`, lines 9-12, and the number of calls of
`source()` on the wrapped object. -/
structure Cache (Text Map : Type) where
  source : Option Text
  size : Option Nat
  maps : List (Str × Map)
  asked : Nat

/-- The constructor, lines 6-25. -/
def Cache.new {Text Map : Type} : Cache Text Map := ⟨none, none, [], 0⟩

/-- `source`, lines 35-39. -/
def Cache.readSource {K : OptKind} {Text Map : Type} (w : Wrapped K Text Map) (c : Cache Text Map) :
    Text × Cache Text Map :=
  match c.source with
  | some s => (s, c)
  | none => (w.source, { c with source := some w.source, asked := c.asked + 1 })

/-- `size`, lines 41-46. -/
def Cache.readSize {K : OptKind} {Text Map : Type} (w : Wrapped K Text Map) (c : Cache Text Map) :
    Nat × Cache Text Map :=
  match c.size with
  | some n => (n, c)
  | none =>
    match c.source with
    | some s => (w.length s, { c with size := some (w.length s) })
    | none => (w.size, { c with size := some w.size })

/-- `sourceAndMap`, lines 48-78. -/
def Cache.readBoth {K : OptKind} {Text Map : Type} (w : Wrapped K Text Map) (o : K.Opt)
    (c : Cache Text Map) : (Text × Map) × Cache Text Map :=
  match c.source, c.maps.lookup (K.key o) with
  | some s, some m => ((s, m), c)
  | some s, none => ((s, w.map o), { c with maps := (K.key o, w.map o) :: c.maps })
  | none, some m => ((w.source, m), { c with source := some w.source, asked := c.asked + 1 })
  | none, none =>
    (w.sourceAndMap o, { c with source := some (w.sourceAndMap o).1,
                                maps := (K.key o, (w.sourceAndMap o).2) :: c.maps })

/-- `map`, lines 80-85: the wrapped `map` is called without arguments. -/
def Cache.readMap {K : OptKind} {Text Map : Type} (w : Wrapped K Text Map) (o : K.Opt)
    (c : Cache Text Map) : Map × Cache Text Map :=
  let o := if K.falsy o then K.empty else o
  match c.maps.lookup (K.key o) with
  | some m => (m, c)
  | none => (w.map K.undef, { c with maps := (K.key o, w.map K.undef) :: c.maps })

/-- A read. -/
inductive CRead (Opt : Type) where
  | source
  | size
  | both (o : Opt)
  | map (o : Opt)

/-- The answer to a read. -/
inductive CAnswer (Text Map : Type) where
  | source (s : Text)
  | size (n : Nat)
  | both (s : Text) (m : Map)
  | map (m : Map)
  deriving DecidableEq

/-- A read of the cached source. -/
def Cache.read {K : OptKind} {Text Map : Type} (w : Wrapped K Text Map) (c : Cache Text Map) :
    CRead K.Opt → CAnswer Text Map × Cache Text Map
  | .source => (.source (c.readSource w).1, (c.readSource w).2)
  | .size => (.size (c.readSize w).1, (c.readSize w).2)
  | .both o => (.both (c.readBoth w o).1.1 (c.readBoth w o).1.2, (c.readBoth w o).2)
  | .map o => (.map (c.readMap w o).1, (c.readMap w o).2)

/-- A history of reads. -/
def Cache.reads {K : OptKind} {Text Map : Type} (w : Wrapped K Text Map) (c : Cache Text Map) :
    List (CRead K.Opt) → Cache Text Map
  | [] => c
  | r :: rs => Cache.reads w (c.read w r).2 rs

/-- The same read of the wrapped source. -/
def Wrapped.read {K : OptKind} {Text Map : Type} (w : Wrapped K Text Map) :
    CRead K.Opt → CAnswer Text Map
  | .source => .source w.source
  | .size => .size w.size
  | .both o => .both (w.sourceAndMap o).1 (w.sourceAndMap o).2
  | .map o => .map (w.map o)

end WS
