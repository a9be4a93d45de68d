import Verif.Model.Sources
/-! # Shared objects: `src/source.rs`, `src/concat_source.rs`, `src/wasm_api/*_source.rs` -/

namespace WS

/-- `Source`, `src/source.rs:16-25`: a plain string or a reference to a shared object
(`Rc<RefCell<_>>`). The seven reference variants carry the kind of the object; here the kind is in
the object itself. -/
inductive Src where
  | str (s : Str)
  | ref (id : Nat)
  deriving DecidableEq, Repr

/-- Objects. `RawSource` `src/raw_source.rs:7-9`, `OriginalSource` `src/original_source.rs:12-16`,
`LineToLineMappedSource` `src/line_to_line_mapped_source.rs:7-11`, `SourceMapSource`
`src/source_map_source.rs:77-85`, `PrefixSource` `src/prefix_source.rs:55-58`, `ReplaceSource`
`src/replace_source.rs:11-16`, `ConcatSource` `src/concat_source.rs:8-10`. -/
inductive Obj where
  | raw (value : Str)
  | original (value : Str) (name valueIdx : Int)
  | l2l (value : Str) (name original : Int)
  | sms (s : Sms)
  | prefixed (pre : Str) (child : Src)
  | replace (child : Src) (repls : List Repl) (isSorted : Bool)
  | concat (children : List Src)
  deriving DecidableEq, Repr

/-- All objects, addressed by their index. Objects are never removed: `Rc` keeps what is
referenced, and the others are unreachable. -/
abbrev Heap := List Obj

/-- `for child in &mut self.children { … child.op() … }` (`src/concat_source.rs:31,39,47,67`). -/
def eachChild {α : Type _} (f : Heap → Src → M (α × Heap)) : Heap → List Src → M (List α × Heap)
  | h, [] => .ok ([], h)
  | h, c :: cs =>
    match f h c with
    | .error e => .error e
    | .ok (a, h) =>
      match eachChild f h cs with
      | .error e => .error e
      | .ok (as, h) => .ok (a :: as, h)

/-- `Source::source`, `src/source.rs:28-40`, with the `source` methods of all kinds
(`src/concat_source.rs:29-35`, `src/prefix_source.rs:67-73`, `src/replace_source.rs:98-101`,
leaf kinds return their value). `busy` lists the objects currently borrowed mutably; borrowing one
again panics. `fuel` bounds the recursion depth. -/
def hSource : Nat → Heap → List Nat → Src → M (Str × Heap)
  | 0, _, _, _ => .error .fuel
  | _ + 1, h, _, .str s => .ok (s, h)
  | fuel + 1, h, busy, .ref i =>
    if i ∈ busy then .error .borrow
    else match h[i]? with
      | none => .error .dangling
      | some (.raw v) => .ok (v, h)
      | some (.original v _ _) => .ok (v, h)
      | some (.l2l v _ _) => .ok (v, h)
      | some (.sms s) => .ok (s.value, h)
      | some (.prefixed p c) =>
        match hSource fuel h (i :: busy) c with
        | .error e => .error e
        | .ok (s, h) => .ok (makePrefixed s p true, h)
      | some (.replace c rs sorted) =>
        match hSource fuel h (i :: busy) c with
        | .error e => .error e
        | .ok (s, h) =>
          let rs := sortRepls rs sorted
          match replaceString s rs with
          | .error e => .error e
          | .ok s => .ok (s, h.set i (.replace c rs true))
      | some (.concat cs) =>
        match eachChild (fun h c => hSource fuel h (i :: busy) c) h cs with
        | .error e => .error e
        | .ok (ss, h) => .ok (ss.flatten, h)

/-- `Source::size`, `src/source.rs:42-54`: leaf kinds `self.value.len()`, concatenation the sum
(`src/concat_source.rs:37-43`), the others the default `self.source().len()`
(`src/source.rs:87-89`). -/
def hSize : Nat → Heap → List Nat → Src → M (Nat × Heap)
  | 0, _, _, _ => .error .fuel
  | _ + 1, h, _, .str s => .ok (blen s, h)
  | fuel + 1, h, busy, .ref i =>
    if i ∈ busy then .error .borrow
    else match h[i]? with
      | none => .error .dangling
      | some (.raw v) => .ok (blen v, h)
      | some (.original v _ _) => .ok (blen v, h)
      | some (.l2l v _ _) => .ok (blen v, h)
      | some (.sms s) => .ok (blen s.value, h)
      | some (.prefixed _ _) | some (.replace _ _ _) =>
        match hSource (fuel + 1) h busy (.ref i) with
        | .error e => .error e
        | .ok (s, h) => .ok (blen s, h)
      | some (.concat cs) =>
        match eachChild (fun h c => hSize fuel h (i :: busy) c) h cs with
        | .error e => .error e
        | .ok (ns, h) => .ok (ns.sum, h)

/-- `Source::node`, `src/source.rs:70-82`, with the `node` methods of all kinds. A plain string is
`unreachable!()` (line 80) except directly below a concatenation
(`src/concat_source.rs:61-78`). -/
def hNode (columns module_ : Bool) : Nat → Heap → List Nat → Src → M (SmNode × Heap)
  | 0, _, _, _ => .error .fuel
  | _ + 1, _, _, .str _ => .error .unreachable
  | fuel + 1, h, busy, .ref i =>
    if i ∈ busy then .error .borrow
    else match h[i]? with
      | none => .error .dangling
      | some (.raw v) => .ok (rawNode v, h)
      | some (.original v name vi) => .ok (originalNode columns v name vi, h)
      | some (.l2l v name orig) => .ok (l2lNode v name orig, h)
      | some (.sms s) =>
        match s.node with
        | .error e => .error e
        | .ok (n, s) => .ok (n, h.set i (.sms s))
      | some (.prefixed p c) =>
        match hNode columns module_ fuel h (i :: busy) c with
        | .error e => .error e
        | .ok (n, h) => .ok (prefixNode p n, h)
      | some (.replace c rs sorted) =>
        let rs := sortRepls rs sorted
        match hNode columns module_ fuel (h.set i (.replace c rs true)) (i :: busy) c with
        | .error e => .error e
        | .ok (n, h) =>
          match replaceNode n rs with
          | .error e => .error e
          | .ok n => .ok (n, h)
      | some (.concat cs) =>
        match eachChild (fun h c => match c with
            | .str s => .ok (.str s, h)
            | .ref j => hNode columns module_ fuel h (i :: busy) (.ref j)) h cs with
        | .error e => .error e
        | .ok (ns, h) => .ok (SmNode.mkVec none none none ns, h)

/-- Adding the children's maps one after the other, `src/concat_source.rs:46-58`. -/
def concatMaps : Slm → List (Str ⊕ Slm) → Slm
  | m, [] => m
  | m, .inl s :: rest => concatMaps (slmAddStr m s none none) rest
  | m, .inr c :: rest => concatMaps (m ++ c) rest

/-- `Source::list_map`, `src/source.rs:56-68`, with the `list_map` methods of all kinds. -/
def hListMap (columns module_ : Bool) : Nat → Heap → List Nat → Src → M (Slm × Heap)
  | 0, _, _, _ => .error .fuel
  | _ + 1, _, _, .str _ => .error .unreachable
  | fuel + 1, h, busy, .ref i =>
    if i ∈ busy then .error .borrow
    else match h[i]? with
      | none => .error .dangling
      | some (.raw v) => .ok (rawListMap v, h)
      | some (.original v name vi) => .ok (originalListMap v name vi, h)
      | some (.l2l v name orig) => .ok (l2lListMap v name orig, h)
      | some (.sms s) =>
        match s.listMap module_ with
        | .error e => .error e
        | .ok (m, s) => .ok (m, h.set i (.sms s))
      | some (.prefixed p c) =>
        match hListMap columns module_ fuel h (i :: busy) c with
        | .error e => .error e
        | .ok (m, h) => .ok (prefixListMap p m, h)
      | some (.replace c rs sorted) =>
        let rs := sortRepls rs sorted
        match hListMap columns module_ fuel (h.set i (.replace c rs true)) (i :: busy) c with
        | .error e => .error e
        | .ok (m, h) => .ok (replaceListMap m rs, h)
      | some (.concat cs) =>
        match eachChild (fun h c => match c with
            | .str s => .ok (.inl s, h)
            | .ref j => match hListMap columns module_ fuel h (i :: busy) (.ref j) with
              | .error e => .error e
              | .ok (m, h) => .ok (.inr m, h)) h cs with
        | .error e => .error e
        | .ok (ms, h) => .ok (concatMaps [] ms, h)

/-- `ConcatSource::add`, `src/concat_source.rs:19-26`, called through
`src/wasm_api/concat_source.rs:26-55` on a mutably borrowed object: adding the object to itself
panics in `cs.borrow()`. -/
def hAdd (h : Heap) (i : Nat) (item : Src) : M Heap :=
  match h[i]? with
  | some (.concat cs) =>
    match item with
    | .str s => .ok (h.set i (.concat (cs ++ [.str s])))
    | .ref j =>
      match h[j]? with
      | none => .error .dangling
      | some (.concat ds) =>
        if j = i then .error .borrow else .ok (h.set i (.concat (cs ++ ds)))
      | some _ => .ok (h.set i (.concat (cs ++ [.ref j])))
  | _ => .error .dangling

/-- `ReplaceSource::replace` through `src/wasm_api/replace_source.rs:78-89`. -/
def hReplace (h : Heap) (i : Nat) (start stop : Int) (text : Str) (ordS ordE : Int) : M Heap :=
  match h[i]? with
  | some (.replace c rs _) =>
    .ok (h.set i (.replace c (rs ++ [mkReplace rs.length start stop text ordS ordE]) false))
  | _ => .error .dangling

/-- `ReplaceSource::insert` through `src/wasm_api/replace_source.rs:91-93`. -/
def hInsert (h : Heap) (i : Nat) (pos : Int) (text : Str) (ord : Int) : M Heap :=
  match h[i]? with
  | some (.replace c rs _) =>
    .ok (h.set i (.replace c (rs ++ [mkInsert rs.length pos text ord]) false))
  | _ => .error .dangling

/-- Recursion budget that is always enough (`Verif/Props/C33.lean`). -/
def budget (h : Heap) : Nat := h.length + 2

/-- `_source()` of the wasm classes, e.g. `src/wasm_api/concat_source.rs:57-59`. -/
def apiSource (h : Heap) (i : Nat) : M (Str × Heap) := hSource (budget h) h [] (.ref i)

/-- `_size()`, e.g. `src/wasm_api/concat_source.rs:61-63` (there truncated to `u32`). -/
def apiSize (h : Heap) (i : Nat) : M (Nat × Heap) := hSize (budget h) h [] (.ref i)

/-- `_node_bool_bool(columns, module)`, e.g. `src/wasm_api/concat_source.rs:69-71`. -/
def apiNode (h : Heap) (i : Nat) (columns module_ : Bool) : M (SmNode × Heap) :=
  hNode columns module_ (budget h) h [] (.ref i)

/-- `_list_map_bool_bool(columns, module)`, e.g. `src/wasm_api/concat_source.rs:65-67`. -/
def apiListMap (h : Heap) (i : Nat) (columns module_ : Bool) : M (Slm × Heap) :=
  hListMap columns module_ (budget h) h [] (.ref i)

/-- `sourceAndMap(options)` of `wasm-api/SourceAndMapMixin.js:51-73`: the list map is used exactly
if `options.columns === false`. `file` is the interned `"x"`. The node path hands out a generator
that is serialized on demand (`src/wasm_api/wasm_containers.rs:47-52`). -/
def apiSourceAndMap (h : Heap) (i : Nat) (columns module_ : Bool) (file : Option Int) :
    M (StringWithSourceMap × Heap) :=
  if columns then
    match apiNode h i columns module_ with
    | .error e => .error e
    | .ok (n, h) =>
      match n.toStringWithSourceMap file none with
      | .error e => .error e
      | .ok r => .ok (r, h)
  else
    match apiListMap h i columns module_ with
    | .error e => .error e
    | .ok (m, h) => .ok (slmToStringWithSourceMap m file, h)

end WS
