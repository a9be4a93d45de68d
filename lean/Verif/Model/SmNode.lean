import Verif.Model.Generator
import Verif.Model.Utils
/-! # `src/source_map/source_node.rs`, `src/source_map/types/mod.rs`,
`src/source_map/from_string_with_source_map.rs` -/

namespace WS

/-- `Node` (`src/source_map/types/mod.rs:10-15`) and `SourceNode`
(`src/source_map/source_node.rs:8-15`) as one tree type: a string or a source node.
Simplification: `NNodeVec` occurs in the code only as an argument of `SourceNode::add`, which
splices it (`source_node.rs:39-41`); it is the `List` argument of `SmNode.mkVec`. -/
inductive SmNode where
  | str (s : Str)
  | node (pos : Option (Nat × Nat)) (source name : Option Int) (contents : List (Int × Int))
      (children : List SmNode)
  deriving Repr

mutual
  /-- Decidable equality, for tests. -/
  def SmNode.beq : SmNode → SmNode → Bool
    | .str a, .str b => a == b
    | .node p s n c ch, .node p' s' n' c' ch' =>
      p == p' && s == s' && n == n' && c == c' && SmNode.beqList ch ch'
    | _, _ => false
  /-- See `SmNode.beq`. -/
  def SmNode.beqList : List SmNode → List SmNode → Bool
    | [], [] => true
    | a :: as, b :: bs => SmNode.beq a b && SmNode.beqList as bs
    | _, _ => false
end

/-- `SourceNode::add` of an `NString`, `source_node.rs:45-49`: empty strings are dropped. -/
def addStrChild (children : List SmNode) (s : Str) : List SmNode :=
  if s.isEmpty then children else children ++ [.str s]

/-- `SourceNode::new(position, source, name, Some(NString(s)))`, `source_node.rs:18-35,45-49`. -/
def SmNode.mkStr (pos : Option (Nat × Nat)) (source name : Option Int) (s : Str) : SmNode :=
  .node pos source name [] (addStrChild [] s)

/-- `SourceNode::new(position, source, name, Some(NNodeVec(v)))`, `source_node.rs:18-35,39-41`. -/
def SmNode.mkVec (pos : Option (Nat × Nat)) (source name : Option Int) (v : List SmNode) : SmNode :=
  .node pos source name [] v

/-- `add_mapping_with_code`, `source_node.rs:116-132`: what is appended to the children. -/
def addMappingWithCode (children : List SmNode) (m : Option Mapping) (code : Str) : List SmNode :=
  match m with
  | some m =>
    if m.source.isSome then children ++ [SmNode.mkStr m.original m.source m.name code]
    else addStrChild children code
  | none => addStrChild children code

/-- `ToSourceMapContext`, `source_node.rs:135-143`. -/
structure WalkCtx where
  map : Generator
  active : Bool
  lastSource : Option Int
  lastPos : Option (Nat × Nat)
  lastName : Option Int
  code : Str
  gen : Nat × Nat
  deriving DecidableEq, Repr

/-- `ToSourceMapContext::new`, `source_node.rs:146-160`. -/
def WalkCtx.new (file : Option Int) (root : Option Str) : WalkCtx :=
  { map := Generator.new file root true, active := false, lastSource := none, lastPos := none,
    lastName := none, code := [], gen := (1, 0) }

/-- First part of `process_chunk`, `source_node.rs:171-197`. -/
def chunkHead (c : WalkCtx) (chunk : Str) (src : Option Int) (pos : Option (Nat × Nat))
    (name : Option Int) : WalkCtx :=
  let c := { c with code := c.code ++ chunk }
  if src.isSome && pos.isSome then
    let c := if c.lastSource ≠ src ∨ c.lastPos ≠ pos ∨ c.lastName ≠ name then
        { c with map := c.map.addMapping { source := src, original := pos, generated := c.gen, name } }
      else c
    { c with lastSource := src, lastPos := pos, lastName := name, active := true }
  else if c.active then
    { c with
      map := c.map.addMapping { source := none, original := none, generated := c.gen, name := none }
      lastSource := none, active := false }
  else c

/-- Character loop of `process_chunk`, `source_node.rs:199-219`. `b + 1 == chunk_len` at a newline
holds exactly for the last character. -/
def chunkChars (src : Option Int) (pos : Option (Nat × Nat)) (name : Option Int) :
    WalkCtx → Str → WalkCtx
  | c, [] => c
  | c, ch :: rest =>
    if ch = '\n' then
      let c := { c with gen := (c.gen.1 + 1, 0) }
      let c := if rest.isEmpty then { c with lastSource := none, active := false }
        else if c.active then
          { c with map := c.map.addMapping { source := src, original := pos, generated := c.gen,
                                             name } }
        else c
      chunkChars src pos name c rest
    else chunkChars src pos name { c with gen := (c.gen.1, c.gen.2 + 1) } rest

/-- `process_chunk`, `source_node.rs:164-220`. -/
def processChunk (c : WalkCtx) (chunk : Str) (src : Option Int) (pos : Option (Nat × Nat))
    (name : Option Int) : WalkCtx :=
  chunkChars src pos name (chunkHead c chunk src pos name) chunk

/-- `process_source_content`, `source_node.rs:222-224`. -/
def processContent (c : WalkCtx) (p : Int × Int) : WalkCtx :=
  { c with map := c.map.setSourceContent p.1 (some p.2) }

mutual
  /-- `SourceNode::walk`, `source_node.rs:99-114`. A string at the root does not occur in the code
  (`walk` is a method of `SourceNode`); it is treated as an unattributed chunk. -/
  def SmNode.walk : SmNode → WalkCtx → WalkCtx
    | .str s, c => processChunk c s none none none
    | .node pos src name contents children, c =>
      contents.foldl processContent (SmNode.walkList pos src name children c)
  /-- The loop over the children, `source_node.rs:100-110`. -/
  def SmNode.walkList (pos : Option (Nat × Nat)) (src name : Option Int) :
      List SmNode → WalkCtx → WalkCtx
    | [], c => c
    | .str s :: rest, c => SmNode.walkList pos src name rest (processChunk c s src pos name)
    | .node p s n cs ch :: rest, c =>
      SmNode.walkList pos src name rest (SmNode.walk (.node p s n cs ch) c)
end

/-- `to_string_with_source_map_generator`, `source_node.rs:72-85`. -/
def SmNode.toStringWithGenerator (n : SmNode) (file : Option Int) (root : Option Str) :
    Str × Generator :=
  let c := n.walk (WalkCtx.new file root)
  (c.code, c.map)

/-- `to_string_with_source_map`, `source_node.rs:57-70`. -/
def SmNode.toStringWithSourceMap (n : SmNode) (file : Option Int) (root : Option Str) :
    M StringWithSourceMap :=
  let c := n.walk (WalkCtx.new file root)
  match c.map.toSourceMap with
  | .error e => .error e
  | .ok (m, _) => .ok { source := c.code, map := m }

/-- Line table of `from_string_with_source_map_generator`,
`src/source_map/from_string_with_source_map.rs:14-41`: pieces up to and including a newline, a last
piece only if non-empty; the flag says whether all characters are single-byte. -/
def codeLines : Str → List (Str × Bool)
  | [] => []
  | c :: cs =>
    let one := c.utf8Size ≤ 1
    if c = '\n' then ([c], decide one) :: codeLines cs
    else match codeLines cs with
      | [] => [([c], decide one)]
      | (l, b) :: ls => (c :: l, decide one && b) :: ls

/-- `next_line`: text, exists, single-byte-only (`from_string_with_source_map.rs:46-49`). -/
structure NextLine where
  text : Str
  exist : Bool
  sbc : Bool
  deriving DecidableEq, Repr

/-- `line_iter.next().unwrap_or((StringSlice::new(), false, true))`,
`from_string_with_source_map.rs:46-49,56-58,83-85,108-110,115-117`. -/
def popLine : List (Str × Bool) → NextLine × List (Str × Bool)
  | [] => (⟨[], false, true⟩, [])
  | (l, b) :: ls => (⟨l, true, b⟩, ls)

/-- Loop state of `from_string_with_source_map_generator`. -/
structure FsState where
  children : List SmNode
  lastPos : Nat × Nat
  lastMapping : Option Mapping
  next : NextLine
  lines : List (Str × Bool)
  deriving Repr

/-- `while last_generated_position.0 < generated_position.0 { … }`,
`from_string_with_source_map.rs:81-87`; the first argument is the number of iterations
`generated_position.0 - last_generated_position.0`. -/
def skipLines : Nat → FsState → FsState
  | 0, st => st
  | n + 1, st =>
    let (nx, ls) := popLine st.lines
    skipLines n { st with children := addStrChild st.children st.next.text, next := nx, lines := ls,
                          lastPos := (st.lastPos.1 + 1, st.lastPos.2) }

/-- Body of the loop after the `last_mapping.is_some()` block, `from_string_with_source_map.rs:81-102`. -/
def fsTail (st : FsState) (m : Mapping) : M FsState :=
  let st := skipLines (m.generated.1 - st.lastPos.1) st
  if st.lastPos.2 < m.generated.2 then
    match splitStr st.next.text m.generated.2 st.next.sbc with
    | .error e => .error e
    | .ok r =>
      let (l, rr, _, rs) := r.orAll
      .ok { st with children := addStrChild st.children l
                    next := { st.next with text := rr, sbc := rs }
                    lastPos := (st.lastPos.1, m.generated.2)
                    lastMapping := some m }
  else .ok { st with lastMapping := some m }

/-- Body of the loop, `from_string_with_source_map.rs:51-103`. -/
def fsStep (st : FsState) (m : Mapping) : M FsState :=
  match st.lastMapping with
  | some lm =>
    if st.lastPos.1 < m.generated.1 then
      let (nx, ls) := popLine st.lines
      fsTail { st with children := addMappingWithCode st.children (some lm) st.next.text
                       next := nx, lines := ls
                       lastPos := (st.lastPos.1 + 1, 0) } m
    else
      match splitStr st.next.text ((m.generated.2 : Int) - st.lastPos.2) st.next.sbc with
      | .error e => .error e
      | .ok r =>
        let (l, rr, _, rs) := r.orAll
        .ok { st with children := addMappingWithCode st.children (some lm) l
                      next := { st.next with text := rr, sbc := rs }
                      lastPos := (st.lastPos.1, m.generated.2)
                      lastMapping := some m }
  | none => fsTail st m

/-- The loop, `from_string_with_source_map.rs:51-103`. -/
def fsLoop : FsState → List Mapping → M FsState
  | st, [] => .ok st
  | st, m :: ms =>
    match fsStep st m with
    | .error e => .error e
    | .ok st => fsLoop st ms

/-- The end, `from_string_with_source_map.rs:105-120`. -/
def fsFinish (st : FsState) : List SmNode :=
  if st.next.exist then
    match st.lastMapping with
    | some lm =>
      let ch := addMappingWithCode st.children (some lm) st.next.text
      addStrChild ch (st.lines.map Prod.fst).flatten
    | none => addStrChild st.children (st.next.text ++ (st.lines.map Prod.fst).flatten)
  else st.children

/-- `from_string_with_source_map_generator`, `from_string_with_source_map.rs:6-123`. It reads the
mapping list in its current order. -/
def fromStringWithGenerator (code : Str) (g : Generator) : M SmNode :=
  let (nx, ls) := popLine (codeLines code)
  match fsLoop { children := [], lastPos := (1, 0), lastMapping := none, next := nx, lines := ls }
      g.mappings.list with
  | .error e => .error e
  | .ok st => .ok (.node none none none g.contents (fsFinish st))

end WS
