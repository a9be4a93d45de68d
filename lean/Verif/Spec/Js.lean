import Verif.Model.JsWorld
import Verif.Spec.Edit
import Verif.Spec.Text
/-! # What a JavaScript program means

Only the statements of the program are looked at; wasm objects, string indices and caches do not
occur. -/

namespace WS.Spec

/-- A request made to a `ReplaceSource`: replace the characters from `first` to `last`. -/
structure JRequest where
  first : Rat
  last : Rat
  text : List Char
  deriving DecidableEq

/-- What an object is. `extra` is what is hashed after the text. -/
inductive JThing where
  | leaf (text : List Char) (extra : List (List Char))
  | prefixed (pre : List Char) (child : JSrc)
  | replaced (child : JSrc) (requests : List JRequest)
  | joined (items : List JSrc)
  deriving DecidableEq

/-- The items contributed by adding `item`: those of a `ConcatSource` at that moment, otherwise the
item itself. -/
def flat (st : List JThing) : JSrc → List JSrc
  | .str s => [.str s]
  | .obj k => match st[k]? with
    | some (.joined items) => items
    | _ => [.obj k]

/-- Adding an item to object `j`. -/
def addTo (st : List JThing) (j : Nat) (item : JSrc) : List JThing :=
  match st[j]? with
  | some (.joined items) => st.set j (.joined (items ++ flat st item))
  | _ => st

/-- A request to object `j`. -/
def askTo (st : List JThing) (j : Nat) (r : JRequest) : List JThing :=
  match st[j]? with
  | some (.replaced c rs) => st.set j (.replaced c (rs ++ [r]))
  | _ => st

/-- What a statement does to the objects. -/
def jstep (st : List JThing) : JOp → List JThing
  | .newRaw v => st ++ [.leaf v []]
  | .newOriginal v _ => st ++ [.leaf v []]
  | .newL2l v _ o => st ++ [.leaf v [o]]
  | .newSms v _ _ o _ => st ++ [.leaf v (o.toList.filter (· ≠ []))]
  | .newPrefix p c => st ++ [.prefixed p c]
  | .newReplace c => st ++ [.replaced c []]
  | .newConcat items => items.foldl (fun s i => addTo s st.length i) (st ++ [.joined []])
  | .add j item => addTo st j item
  | .replace j a b t => askTo st j ⟨a, b, t⟩
  | .insert j p t => askTo st j ⟨p, p - 1, t⟩
  | _ => st

/-- The objects after a program. -/
def jthings (ops : List JOp) : List JThing := ops.foldl jstep []

/-- The sixteenth a position lies in. -/
def sixteenth (q : Rat) : Int := (16 * q).floor

/-- `x` is applied before `y`: it ends later; or ends alike and begins later; or it is the later
call. Positions are compared in sixteenths. -/
def Before (x y : JRequest × Nat) : Prop :=
  sixteenth x.1.last > sixteenth y.1.last ∨
  sixteenth x.1.last = sixteenth y.1.last ∧
    (sixteenth x.1.first > sixteenth y.1.first ∨
      sixteenth x.1.first = sixteenth y.1.first ∧ x.2 > y.2)

/-- The numbered requests in the order in which they are applied. -/
structure RightToLeft (rs : List JRequest) (es : List (JRequest × Nat)) : Prop where
  perm : es.Perm rs.zipIdx
  order : es.Pairwise Before

/-- The characters a request names. -/
def JRequest.edit (r : JRequest) : Edit := ⟨r.first.floor, r.last.floor + 1, r.text⟩

/-- The text of a source. -/
inductive JText (st : List JThing) : JSrc → List Char → Prop where
  | str (s : List Char) : JText st (.str s) s
  | leaf {j : Nat} {v : List Char} {ex : List (List Char)} : st[j]? = some (.leaf v ex) →
      JText st (.obj j) v
  | prefixed {j : Nat} {p : List Char} {c : JSrc} {s : List Char} :
      st[j]? = some (.prefixed p c) → JText st c s → JText st (.obj j) (indent p s)
  | replaced {j : Nat} {c : JSrc} {rs : List JRequest} {es : List (JRequest × Nat)}
      {s : List Char} : st[j]? = some (.replaced c rs) → JText st c s → RightToLeft rs es →
      JText st (.obj j) (applyRight s (es.map fun e => e.1.edit))
  | joined {j : Nat} {items : List JSrc} {ss : List (List Char)} :
      st[j]? = some (.joined items) → ss.length = items.length →
      (∀ (k : Nat) (i : JSrc) (s : List Char), items[k]? = some i → ss[k]? = some s → JText st i s) →
      JText st (.obj j) ss.flatten

/-- Positions that are whole or not negative. -/
def Proper (q : Rat) : Prop := 0 ≤ q ∨ q.floor = q

/-- All positions in the program are proper. -/
def _root_.WS.JOp.Proper : JOp → Prop
  | .replace _ a b _ => Spec.Proper a ∧ Spec.Proper b
  | .insert _ p _ => Spec.Proper p
  | _ => True

/-- What `updateHash` feeds to the hash, in order: a string itself; the value of a leaf and what
goes with it; the stream of the wrapped object and then the prefix; the text of a `ReplaceSource`; the
streams of the items of a `ConcatSource`. -/
inductive JHash (st : List JThing) : JSrc → List (List Char) → Prop where
  | str (s : List Char) : JHash st (.str s) [s]
  | leaf {j : Nat} {v : List Char} {ex : List (List Char)} : st[j]? = some (.leaf v ex) →
      JHash st (.obj j) (v :: ex)
  | prefixed {j : Nat} {p : List Char} {c : JSrc} {l : List (List Char)} :
      st[j]? = some (.prefixed p c) → JHash st c l → JHash st (.obj j) (l ++ [p])
  | replaced {j : Nat} {c : JSrc} {rs : List JRequest} {s : List Char} :
      st[j]? = some (.replaced c rs) → JText st (.obj j) s → JHash st (.obj j) [s]
  | joined {j : Nat} {items : List JSrc} {ls : List (List (List Char))} :
      st[j]? = some (.joined items) → ls.length = items.length →
      (∀ (k : Nat) (i : JSrc) (l : List (List Char)), items[k]? = some i → ls[k]? = some l →
        JHash st i l) →
      JHash st (.obj j) ls.flatten

/-- The items a statement adds to a `ConcatSource`. -/
def _root_.WS.JOp.items : JOp → List JSrc
  | .newConcat items => items
  | .add _ item => [item]
  | _ => []

/-- Nothing is added to an object after it was itself added to a `ConcatSource`. -/
def Settled (ops : List JOp) : Prop :=
  ops.Pairwise fun a b => ∀ j item, b = .add j item → JSrc.obj j ∉ a.items

/-- The strings in a source map argument. -/
def _root_.WS.MapArg.supply : MapArg → JField → List JVal
  | .plain sources _ _ _, .sources => sources
  | .plain _ contents _ _, .contents => contents
  | .plain _ _ names _, .names => names
  | _, _ => []

/-- The strings in a source map argument that may be absent. -/
def supplyOpt : Option MapArg → JField → List JVal
  | some a, f => a.supply f
  | none, _ => []

/-- The strings a statement supplies as source names, as contents of sources and as names. -/
def _root_.WS.JOp.supply : JOp → JField → List JVal
  | .newOriginal _ name, .sources => [some name]
  | .newOriginal v _, .contents => [some v]
  | .newL2l _ name _, .sources => [some name]
  | .newL2l _ _ original, .contents => [some original]
  | .newSms _ name map _ inner, .sources =>
    some name :: (map.supply .sources ++ supplyOpt inner .sources)
  | .newSms v _ map original inner, .contents =>
    some v :: (original.toList.map some ++ (map.supply .contents ++ supplyOpt inner .contents))
  | .newSms _ _ map _ inner, .names => map.supply .names ++ supplyOpt inner .names
  | .set _ (.sources l), .sources => l
  | .set _ (.contents l), .contents => l
  | .set _ (.names l), .names => l
  | _, _ => []

/-- The strings a program supplies. -/
def supplied (ops : List JOp) (f : JField) : List JVal := ops.flatMap fun op => op.supply f

/-- The contents a source map argument gives for its sources. -/
def _root_.WS.MapArg.pairs : MapArg → List (JVal × JVal)
  | .plain sources contents _ _ => sources.zip contents
  | .emitted _ => []

/-- The contents a statement gives for sources: for an `OriginalSource` its text, for a
`LineToLineMappedSource` and for a `SourceMapSource` the original text, and what the maps say. -/
def _root_.WS.JOp.pairs : JOp → List (JVal × JVal)
  | .newOriginal v name => [(some name, some v)]
  | .newL2l _ name original => [(some name, some original)]
  | .newSms _ name map original inner =>
    original.toList.map (fun o => (some name, some o)) ++ map.pairs ++
      (match inner with | some a => a.pairs | none => [])
  | _ => []

/-- The contents a program gives for sources. -/
def suppliedPairs (ops : List JOp) : List (JVal × JVal) := ops.flatMap JOp.pairs

/-- A map with a content for each of its sources. -/
def _root_.WS.MapArg.Complete : MapArg → Prop
  | .plain sources contents _ _ => sources.length ≤ contents.length
  | .emitted _ => True

/-- Statements of programs that ask for maps column by column: maps are given with all contents,
sources and contents of emitted maps are not overwritten, there is no `ReplaceSource`. -/
def _root_.WS.JOp.ByColumns : JOp → Prop
  | .newSms _ _ map _ inner => map.Complete ∧ ∀ a, inner = some a → a.Complete
  | .newReplace _ => False
  | .sourceAndMap _ columns _ => columns = true
  | .set _ (.sources _) => False
  | .set _ (.contents _) => False
  | _ => True

/-- Statements before a map is asked for line by line: maps are given as ordinary objects with all
contents. -/
def _root_.WS.JOp.ByLines : JOp → Prop
  | .newSms _ _ map _ inner => (map.Complete ∧ ∀ k, map ≠ .emitted k) ∧
      ∀ a, inner = some a → a.Complete ∧ ∀ k, a ≠ .emitted k
  | _ => True

/-- The lists line up: as many contents as sources, each a content for its source. A list that reads as
`undefined` is empty. -/
structure LinesUp (given : List (JVal × JVal)) (sources : List JVal) (contents : JFieldVal) : Prop where
  all : ∃ l, (contents = .list l ∨ contents = .undefined ∧ l = []) ∧ l.length = sources.length ∧
    ∀ (i : Nat) (s c : JVal), sources[i]? = some s → l[i]? = some c → (s, c) ∈ given

end WS.Spec
