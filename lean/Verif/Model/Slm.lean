import Verif.Model.Generator
/-! # `src/source_list_map/*` -/

namespace WS

/-- `SourceNode` of the list map, `src/source_list_map/source_node.rs:8-15`. -/
structure LSource where
  code : Str
  original : Option Int
  source : Option Int
  startLine : Nat
  numLines : Nat
  endsNl : Bool
  deriving DecidableEq, Repr

/-- `SingleLineNode`, `src/source_list_map/single_line_node.rs:8-15`. -/
structure LSingle where
  code : Str
  original : Option Int
  source : Option Int
  line : Nat
  numLines : Nat
  endsNl : Bool
  deriving DecidableEq, Repr

/-- `Node` of the list map, `src/source_list_map/mod.rs:23-30`. `code` is `NCodeNode`
(`src/source_list_map/code_node.rs:7-9`), `map` is `NSourceListMap` with its children. -/
inductive LNode where
  | str (s : Str)
  | code (s : Str)
  | source (n : LSource)
  | single (n : LSingle)
  | map (children : List LNode)
  | idx (i : Int)
  deriving Repr

/-- `SourceListMap`, `src/source_list_map/source_list_map.rs:7-9`, is its list of children. -/
abbrev Slm := List LNode

/-- `SourceNode::new`, `src/source_list_map/source_node.rs:18-32`. -/
def LSource.new (code : Str) (source original : Option Int) (startLine : Nat) : LSource :=
  { code, original, source, startLine, numLines := numberOfLines code, endsNl := WS.endsNl code }

/-- `SingleLineNode::new`, `src/source_list_map/single_line_node.rs:18-32`. -/
def LSingle.new (code : Str) (source original : Option Int) (line : Nat) : LSingle :=
  { code, original, source, line, numLines := numberOfLines code, endsNl := WS.endsNl code }

/-- `SourceNode::add_generated_code`, `src/source_list_map/source_node.rs:34-38`. -/
def LSource.addCode (n : LSource) (code : Str) : LSource :=
  { n with code := n.code ++ code, numLines := n.numLines + numberOfLines code,
           endsNl := WS.endsNl code }

/-- `SourceNode::merge` with a source node, `src/source_list_map/source_node.rs:51-63`. -/
def LSource.mergeSource (n o : LSource) : Option LSource :=
  if n.source = o.source ∧ n.endsNl = true ∧ n.startLine + n.numLines = o.startLine then
    some { n with code := n.code ++ o.code, numLines := n.numLines + o.numLines, endsNl := o.endsNl }
  else none

/-- `SourceNode::merge` with a single-line node, `src/source_list_map/source_node.rs:65-83`. -/
def LSource.mergeSingle (n : LSource) (o : LSingle) : Option LSource :=
  if n.source = o.source ∧ n.endsNl = true ∧ n.startLine + n.numLines = o.line ∧ o.numLines ≤ 1 then
    some { n with code := n.code ++ o.code, numLines := n.numLines + o.numLines, endsNl := o.endsNl }
  else none

/-- `SingleLineNode::merge`, `src/source_list_map/single_line_node.rs:44-76`. -/
def LSingle.mergeSingle (n o : LSingle) : Option LNode :=
  if n.source = o.source ∧ n.original = o.original then
    if n.line = o.line then
      some (.single { n with code := n.code ++ o.code, numLines := n.numLines + o.numLines,
                             endsNl := o.endsNl })
    else if n.line + 1 = o.line ∧ n.endsNl = true ∧ n.numLines = 1 ∧ o.numLines ≤ 1 then
      some (.source (LSource.new (n.code ++ o.code) n.source n.original n.line))
    else none
  else none

/-- The `merge` methods of the three node kinds: `code_node.rs:27-35`, `source_node.rs:43-49`,
`single_line_node.rs:44-49`; `none` is `Err` (the node is handed back unchanged). -/
def LNode.merge : LNode → LNode → Option LNode
  | .code a, .code b => some (.code (a ++ b))
  | .source n, .source o => (n.mergeSource o).map .source
  | .source n, .single o => (n.mergeSingle o).map .source
  | .single n, .single o => n.mergeSingle o
  | _, _ => none

/-- `MappingsContext`, `src/source_list_map/mappings_context.rs:5-11`. The table keeps, in insertion
order, source ↦ (index, content). `has_source_content` is never read and left out. -/
structure MapCtx where
  sources : List (Option Int × Nat × Option Int)
  origLine : Nat
  source : Nat
  unfinished : Nat
  deriving DecidableEq, Repr

/-- `MappingsContext::new`, `mappings_context.rs:14-22`. -/
def MapCtx.new : MapCtx := { sources := [], origLine := 1, source := 0, unfinished := 0 }

/-- `ensure_source`, `mappings_context.rs:24-43`. -/
def MapCtx.ensureSource (c : MapCtx) (s : Option Int) (original : Option Int) : Nat × MapCtx :=
  match c.sources.lookup s with
  | some (i, _) => (i, c)
  | none =>
    (c.sources.length, { c with sources := c.sources ++ [(s, c.sources.length, original)] })

/-- `CodeNode::get_mappings`, `src/source_list_map/code_node.rs:41-65`. -/
def codeMappings (c : MapCtx) (code : Str) : Str × MapCtx :=
  let lines := numberOfLines code
  if lines > 0 then
    let u := unfinishedLines code
    (List.replicate lines ';' ++ (if u > 0 then ['A'] else []), { c with unfinished := u })
  else
    let u := c.unfinished + unfinishedLines code
    (if c.unfinished = 0 ∧ u > 0 then ['A'] else [], { c with unfinished := u })

/-- `line_mapping` of `src/source_list_map/source_node.rs:94`. -/
def nextLineSeg : Str := [';', 'A', 'A', 'C', 'A']

/-- `line_mapping` of `src/source_list_map/single_line_node.rs:94`. -/
def sameLineSeg : Str := [';', 'A', 'A', 'A', 'A']

/-- The first segment of a mapped node, `src/source_list_map/source_node.rs:100-114` and
`single_line_node.rs:101-115`. -/
def headSeg (c : MapCtx) (srcIdx line : Nat) : Str :=
  (if c.unfinished ≠ 0 then ',' :: vlqEncode c.unfinished else ['A']) ++
  vlqEncode ((srcIdx : Int) - c.source) ++ vlqEncode ((line : Int) - c.origLine) ++ ['A']

/-- `SourceNode::get_mappings`, `src/source_list_map/source_node.rs:89-136`. Lines 116-118 and 132
set `current_original_line` to `start + lines - 1` and add 1 again if the last line is unfinished;
for `start = lines = 0` the intermediate value wraps and is wrapped back, here it is written
without the detour. -/
def LSource.mappings (c : MapCtx) (n : LSource) : Str × MapCtx :=
  if n.code.isEmpty then ([], c)
  else
    let (i, c) := c.ensureSource n.source n.original
    let hd := headSeg c i n.startLine
    let u := unfinishedLines n.code
    let mid := (List.replicate (n.numLines - 1) nextLineSeg).flatten
    let tl := if u = 0 then [';'] else if n.numLines ≠ 0 then nextLineSeg else []
    (hd ++ mid ++ tl,
     { c with source := i, unfinished := u,
              origLine := if u = 0 then n.startLine + n.numLines - 1 else n.startLine + n.numLines })

/-- `SingleLineNode::get_mappings`, `src/source_list_map/single_line_node.rs:89-133`. -/
def LSingle.mappings (c : MapCtx) (n : LSingle) : Str × MapCtx :=
  if n.code.isEmpty then ([], c)
  else
    let (i, c) := c.ensureSource n.source n.original
    let hd := headSeg c i n.line
    let u := unfinishedLines n.code
    let mid := (List.replicate (n.numLines - 1) sameLineSeg).flatten
    let tl := if u = 0 then [';'] else if n.numLines ≠ 0 then sameLineSeg else []
    (hd ++ mid ++ tl, { c with source := i, unfinished := u, origLine := n.line })

/-- Dispatch of `to_string_with_source_map`, `src/source_list_map/source_list_map.rs:206-217`:
other children produce no mappings. -/
def LNode.mappings (c : MapCtx) : LNode → Str × MapCtx
  | .source n => n.mappings c
  | .code s => codeMappings c s
  | .single n => n.mappings c
  | _ => ([], c)

/-- Loop of `source_list_map.rs:205-217`. -/
def slmMappings : MapCtx → Slm → Str × MapCtx
  | c, [] => ([], c)
  | c, n :: ns =>
    let (s, c) := n.mappings c
    let (s', c) := slmMappings c ns
    (s ++ s', c)

/-- Text contributed by a child, `source_list_map.rs:195-203`. -/
def LNode.text : LNode → Str
  | .code s => s
  | .source n => n.code
  | .single n => n.code
  | .str s => s
  | _ => []

/-- Text of `to_string_with_source_map`, `source_list_map.rs:194-203`. -/
def slmText (m : Slm) : Str := (m.map LNode.text).flatten

/-- `to_string_with_source_map`, `source_list_map.rs:191-233`, with `get_arrays`
(`mappings_context.rs:45-55`). -/
def slmToStringWithSourceMap (m : Slm) (file : Option Int) : StringWithSourceMap :=
  let (mappings, c) := slmMappings MapCtx.new m
  { source := slmText m
    map := { version := 3
             file := some (file.getD (-1))
             sources := c.sources.map fun p => p.1.getD (-1)
             sourcesContent := c.sources.filterMap fun p => p.2.2
             mappings
             names := []
             sourceRoot := none } }

/-- `to_string`, `source_list_map.rs:181-189`: only single-line nodes are rendered. -/
def slmToString (m : Slm) : Str :=
  (m.map fun | .single n => n.code | _ => []).flatten

/-- `SourceListMap::add` of a string, `source_list_map.rs:39-62`. -/
def slmAddStr (m : Slm) (s : Str) (source original : Option Int) : Slm :=
  if source.isSome then m ++ [.source (LSource.new s source original 1)]
  else match m.getLast? with
    | some (.code c) => m.dropLast ++ [.code (c ++ s)]
    | _ => m ++ [.code s]

/-- `SourceListMap::add`, `source_list_map.rs:32-80`. -/
def slmAdd (m : Slm) (n : LNode) (source original : Option Int) : M Slm :=
  match n with
  | .str s => .ok (slmAddStr m s source original)
  | .map ch => .ok (m ++ ch)
  | .idx _ => .error .message
  | n => .ok (m ++ [n])

/-- `SourceListMap::new(Some(Code(NString(s))), source, original)`, `source_list_map.rs:12-24`. -/
def slmNewStr (s : Str) (source original : Option Int) : Slm := slmAddStr [] s source original

/-- `SourceListMap::prepend`, `source_list_map.rs:82-113`. -/
def slmPrepend (m : Slm) (n : LNode) (source original : Option Int) : M Slm :=
  match n with
  | .str s =>
    if source.isNone then .ok (.source (LSource.new s source original 1) :: m)
    else .ok (.code s :: m)
  | .map ch => .ok (ch ++ m)
  | .idx _ => .error .message
  | n => .ok (n :: m)

/-- Loop of `SourceNode::get_normalized_nodes`, `src/source_list_map/source_node.rs:143-154`:
the last piece is left out if the node claims to end with a newline. -/
def normLines (source original : Option Int) (endsNl : Bool) : Nat → List Str → List LNode
  | _, [] => []
  | cur, [l] => if endsNl then [] else [.single (LSingle.new l source original cur)]
  | cur, l :: ls =>
    .single (LSingle.new l source original cur) :: normLines source original endsNl (cur + 1) ls

/-- `get_normalized_nodes` of the three kinds: `source_node.rs:138-156`, `code_node.rs:67-69`,
`single_line_node.rs:135-137`; others are dropped (`source_list_map.rs:119-132`). -/
def LNode.normalized : LNode → List LNode
  | .code s => [.code s]
  | .source n => normLines n.source n.original n.endsNl n.startLine (splitKeep '\n' n.code)
  | .single n => [.single n]
  | _ => []

/-- `map_generated_code` of a code or single-line node, `code_node.rs:22-25`,
`single_line_node.rs:34-42`, dispatched in `source_list_map.rs:136-141`. `f` is
`MappingFunction::map` with its state. -/
def LNode.mapCode {σ : Type _} (f : σ → Str → Str × σ) (st : σ) : LNode → Option LNode × σ
  | .code s => let (s', st) := f st s; (some (.code s'), st)
  | .single n =>
    let (s', st) := f st n.code
    (some (.single (LSingle.new s' n.source n.original n.line)), st)
  | _ => (none, st)

/-- One iteration of `source_list_map.rs:135-177`: merge into the last optimized node or push.
`rev` is `optimized_nodes`, last element first. -/
def pushMerge (rev : List LNode) : Option LNode → List LNode
  | none => rev
  | some n =>
    match rev with
    | [] => [n]
    | last :: rest =>
      match last.merge n with
      | some m => m :: rest
      | none => n :: last :: rest

/-- Loop of `source_list_map.rs:134-177`. -/
def mapLoop {σ : Type _} (f : σ → Str → Str × σ) : σ → List LNode → List LNode → List LNode × σ
  | st, rev, [] => (rev, st)
  | st, rev, n :: ns =>
    let (o, st) := n.mapCode f st
    mapLoop f st (pushMerge rev o) ns

/-- `map_generated_code`, `source_list_map.rs:115-179`. -/
def slmMapGenerated {σ : Type _} (f : σ → Str → Str × σ) (st : σ) (m : Slm) : Slm × σ :=
  let (rev, st) := mapLoop f st [] (m.map LNode.normalized).flatten
  (rev.reverse, st)

/-! ## `src/source_list_map/from_string_with_source_map.rs` -/

/-- Loop variables of `from_string_with_source_map.rs:12-16`; `rev` is `nodes`, last first. -/
structure LfState where
  rev : List LNode
  curLine : Int
  curSource : Nat
  nodeLine : Nat
  deriving Repr

/-- `add_code`, `from_string_with_source_map.rs:108-128`. -/
def lfAddCode (st : LfState) (code : Str) : LfState :=
  match st.rev with
  | .code s :: rest => { st with rev := .code (s ++ code) :: rest }
  | .source n :: rest =>
    if isBlank code then
      { st with rev := .source (n.addCode code) :: rest, nodeLine := st.nodeLine + 1 }
    else { st with rev := .code code :: st.rev }
  | rev => { st with rev := .code code :: rev }

/-- `add_source`, `from_string_with_source_map.rs:131-153`. -/
def lfAddSource (st : LfState) (code : Str) (source original : Option Int) (line : Nat) : LfState :=
  match st.rev with
  | .source n :: rest =>
    if n.source = source ∧ st.nodeLine = line then
      { st with rev := .source (n.addCode code) :: rest, nodeLine := st.nodeLine + 1 }
    else { st with rev := .source (LSource.new code source original line) :: st.rev,
                   nodeLine := line + 1 }
  | rev => { st with rev := .source (LSource.new code source original line) :: rev,
                     nodeLine := line + 1 }

/-- The bytes skipped by `from_string_with_source_map.rs:57-63`. -/
def skipToComma (s : Str) : Str := s.dropWhile (· != ',')

/-- One iteration of the segment loop, `from_string_with_source_map.rs:25-82`: remaining bytes,
`line_added`, state. `value as usize + current_source_index` (line 41) wraps in the release build
for negative deltas. -/
def lfSegment (sources contents : List Int) (line : Str) (added : Bool) (st : LfState) (rest : Str) :
    M (Str × Bool × LfState) :=
  match (if rest.head? ≠ some ',' then
      (match vlqDecode rest with | some (_, r) => (.ok r : M Str) | none => .error .vlq)
    else .ok rest) with
  | .error e => .error e
  | .ok [] => .ok ([], added, st)
  | .ok (c :: r) =>
    if c = ',' then .ok (r, added, st)
    else
      match vlqDecode (c :: r) with
      | none => .error .vlq
      | some (v, rest) =>
        let si := toUsize (v + st.curSource)
        let st := { st with curSource := si }
        match (if rest ≠ [] ∧ rest.head? ≠ some ',' then
            (match vlqDecode rest with
              | some (v, r) => (.ok (v + st.curLine, r) : M (Int × Str))
              | none => .error .vlq)
          else .ok (st.curLine, rest)) with
        | .error e => .error e
        | .ok (lp, rest) =>
          let st := { st with curLine := lp }
          let rest := skipToComma rest
          if added then .ok (rest, added, st)
          else .ok (rest, true, lfAddSource st line sources[si]? contents[si]? (toUsize lp))

/-- The segment loop, `from_string_with_source_map.rs:25-82`; every iteration consumes input, the
first argument bounds their number. -/
def lfSegments (sources contents : List Int) (line : Str) :
    Nat → Bool → LfState → Str → M (Bool × LfState)
  | _, added, st, [] => .ok (added, st)
  | 0, _, _, _ :: _ => .error .fuel
  | fuel + 1, added, st, c :: cs =>
    match lfSegment sources contents line added st (c :: cs) with
    | .error e => .error e
    | .ok (rest, added, st) => lfSegments sources contents line fuel added st rest

/-- Treatment of one code line with its mapping line, `from_string_with_source_map.rs:20-89`. -/
def lfLine (sources contents : List Int) (st : LfState) (line mapping : Str) : M LfState :=
  if mapping.isEmpty then .ok (lfAddCode st line)
  else
    match lfSegments sources contents line mapping.length false st mapping with
    | .error e => .error e
    | .ok (added, st) => .ok (if added then st else lfAddCode st line)

/-- The loop over mapping lines, `from_string_with_source_map.rs:19-90`; returns the code lines not
consumed. -/
def lfLines (sources contents : List Int) : LfState → List Str → List Str → M (LfState × List Str)
  | st, lines, [] => .ok (st, lines)
  | st, [], _ :: ms => lfLines sources contents st [] ms
  | st, l :: ls, m :: ms =>
    match lfLine sources contents st l m with
    | .error e => .error e
    | .ok st => lfLines sources contents st ls ms

/-- The loop over the remaining lines, `from_string_with_source_map.rs:92-103`. The slice moved back
by one byte starts with the newline that ended the previous piece (C34). When the line is not
blank, `lines.rest()` moved back by the length of the line is the line with everything after it,
and the iterator is finished. -/
def lfRest : LfState → List Str → LfState
  | st, [] => st
  | st, l :: ls =>
    if isBlank ('\n' :: l) then lfRest (lfAddCode st l) ls
    else lfAddCode st (l ++ ls.flatten)

/-- `from_string_with_source_map`, `from_string_with_source_map.rs:6-105`. -/
def slmFromString (code : Str) (sources contents : List Int) (mappings : Str) : M Slm :=
  match lfLines sources contents { rev := [], curLine := 1, curSource := 0, nodeLine := 0 }
      (splitKeep '\n' code) (splitDrop ';' mappings) with
  | .error e => .error e
  | .ok (st, rest) => .ok (lfRest st rest).rev.reverse

end WS
