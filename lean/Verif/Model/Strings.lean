import Verif.Model.JsWorld
import Verif.Model.Slice
/-!
# Strings between JavaScript and wasm: `wasm-api/build/webpack_sources.js:4-32`

The generated bindings hand strings over as UTF-8 bytes: `passStringToWasm` encodes with
`new TextEncoder("utf-8")`, `getStringFromWasm` decodes with `new TextDecoder("utf-8")`. Both are the ones of
the Encoding Standard (`util` of node): the encoder replaces unpaired surrogates by U+FFFD, and the decoder,
made without `ignoreBOM`, drops one leading byte order mark.

The second part has the statements of `JsWorld.lean` once more, with texts read through the decoder.
-/

namespace WS

/-- A JavaScript string: UTF-16 code units. -/
abbrev Units := List UInt16

/-- A high surrogate. -/
def highSurrogate (u : UInt16) : Bool := 0xD800 ≤ u.toNat && u.toNat < 0xDC00

/-- A low surrogate. -/
def lowSurrogate (u : UInt16) : Bool := 0xDC00 ≤ u.toNat && u.toNat < 0xE000

/-- The replacement character. -/
def replacementChar : Char := Char.ofNat 0xFFFD

/-- The conversion to scalar values with which `TextEncoder.encode` begins. -/
def Units.chars : Units → Str
  | [] => []
  | [u] =>
    if highSurrogate u || lowSurrogate u then [replacementChar] else [Char.ofNat u.toNat]
  | u :: v :: rest =>
    if highSurrogate u then
      if lowSurrogate v then
        Char.ofNat (0x10000 + (u.toNat - 0xD800) * 0x400 + (v.toNat - 0xDC00)) :: Units.chars rest
      else replacementChar :: Units.chars (v :: rest)
    else if lowSurrogate u then replacementChar :: Units.chars (v :: rest)
    else Char.ofNat u.toNat :: Units.chars (v :: rest)

/-- The code units of a character. -/
def unitsOf (c : Char) : Units :=
  if c.val.toNat < 0x10000 then [UInt16.ofNat c.val.toNat]
  else [UInt16.ofNat (0xD800 + (c.val.toNat - 0x10000) / 0x400), UInt16.ofNat (0xDC00 + (c.val.toNat - 0x10000) % 0x400)]

/-- The string of a text. -/
def utf16 (s : Str) : Units := s.flatMap unitsOf

/-- `passStringToWasm`, `wasm-api/build/webpack_sources.js:19-24`: the bytes put into memory. -/
def passString (s : Units) : List UInt8 := enc s.chars

/-- `getStringFromWasm`, `wasm-api/build/webpack_sources.js:30-32`. Bytes that are not UTF-8, for which the decoder
puts in replacement characters, give `none` here: texts of the library are always UTF-8 (C34). -/
def getString (b : List UInt8) : Option Units :=
  let b := match b with
    | 0xEF :: 0xBB :: 0xBF :: rest => rest
    | b => b
  b.toByteArray.utf8Decode?.map fun cs => utf16 cs.toList

/-! ## Programs -/

/-- The byte order mark. -/
def byteOrderMark : Char := Char.ofNat 0xFEFF

/-- What `getStringFromWasm` makes of a text (`C77_read`). -/
def readText : Str → Str
  | [] => []
  | c :: s => if c = byteOrderMark then s else c :: s

/-- `source()`: as `World.readSource`; `_source()` (`wasm-api/build/webpack_sources.js:543-557,722-736,1551-1565`)
hands the text through `getStringFromWasm`. -/
def World.readSourceB (w : World) (j : Nat) : Except JErr (Str × World) :=
  match w.objs[j]? with
  | none => .error .noObject
  | some o =>
    match o.kind.value with
    | some v => .ok (v, w)
    | none => (w.call (.source o.ptr)).bind fun p =>
        match p.1 with
        | .text s => .ok (readText s, p.2)
        | _ => .error .noObject

/-- `updateHash`: as `World.hashObj`; `ReplaceSource` hashes what `source()` returns
(`wasm-api/ReplaceSource.js:104-107`). -/
def World.hashObjB : Nat → World → Nat → Except JErr (List Str × World)
  | 0, _, _ => .error .stack
  | fuel + 1, w, j =>
    match w.objs[j]? with
    | none => .error .noObject
    | some o =>
      match o.kind with
      | .raw v => .ok ([v], w)
      | .original v => .ok ([v], w)
      | .l2l v orig => .ok ([v, orig], w)
      | .sms v orig => .ok (v :: orig.toList, w)
      | .prefixed pre c =>
        (World.hashEach (World.hashObjB fuel) w [c]).map fun p => (p.1 ++ [pre], p.2)
      | .replace _ => (w.readSourceB j).map fun p => ([p.1], p.2)
      | .concat cs => World.hashEach (World.hashObjB fuel) w cs

/-- The getter of `source`: as `Emitted.getSource`; `s()` (`wasm-api/build/webpack_sources.js:804-818`) hands the
text through `getStringFromWasm`. (So does `mappings()`, whose texts have no byte order mark.) -/
def Emitted.getSourceB (e : Emitted) : Except JErr (Str × Emitted) :=
  match e.source with
  | some s => .ok (s, e)
  | none =>
    match e.wasm with
    | none => .error .moved
    | some wm => .ok (readText wm.s, { e with source := some (readText wm.s) })

/-- One statement: as `JOp.run`, with texts read from wasm as JavaScript sees them. -/
def JOp.runB (w : World) : JOp → Except JErr (JAnswer × World)
  | .source j => (w.readSourceB j).map fun p => (.text p.1, p.2)
  | .hash j => (World.hashObjB (w.objs.length + 1) w j).map fun p => (.chunks p.1, p.2)
  | .get k .source =>
    match w.maps[k]? with
    | none => .error .noObject
    | some e => e.getSourceB.map fun p => (.field (.text p.1), { w with maps := w.maps.set k p.2 })
  | op => op.run w

/-- A program from a given state. -/
def World.runFromB : World → List JOp → Except JErr World
  | w, [] => .ok w
  | w, op :: ops => (op.runB w).bind fun p => p.2.runFromB ops

/-- A program from the beginning. -/
def World.runB (ops : List JOp) : Except JErr World := World.empty.runFromB ops

end WS
