import Verif.Model.Tree
/-! # The reads in the arithmetic of the wasm32 build

`usize` has 32 bits and wraps around, `as i32` keeps the low 32 bits. The rest of the model calculates
without bounds. Here are the functions in which numbers that come from a given map or from a call of
`replace`/`insert` (not from the size of a text in memory) go through such arithmetic, as they are
in the code. `Props/C71.lean` says when they agree with the model. -/

namespace WS

/-- `x as i32`, and `i32` arithmetic in the release build: the low 32 bits, signed. -/
def i32 (x : Int) : Int := (x + 2147483648) % 4294967296 - 2147483648

/-- `usize` arithmetic in the release build for wasm32: the low 32 bits. -/
def usize32 (n : Nat) : Nat := n % 4294967296

/-! ## Given maps: `src/source_map/source_map_generator.rs` -/

/-- `resolveParsed` with `original.original_line as usize + 1` of `source_map_generator.rs:301`. -/
def resolveParsed32 (sources names : List Int) (p : Parsed) : M Mapping :=
  match p.original with
  | none => .ok { generated := (p.genLine + 1, p.genCol), original := none, source := none,
                  name := none }
  | some (si, ol, oc, ni) =>
    match (match ni with
      | none => (.ok none : M (Option Int))
      | some i => match names[i]? with | some n => .ok (some n) | none => .error .index) with
    | .error e => .error e
    | .ok name =>
      match sources[si]? with
      | none => .error .index
      | some src =>
        .ok { generated := (p.genLine + 1, p.genCol), original := some (usize32 (ol + 1), oc),
              source := some src, name }

/-- `addParsed`, `source_map_generator.rs:291-316`. -/
def addParsed32 (sources names : List Int) : Generator → List Parsed → M Generator
  | g, [] => .ok g
  | g, p :: ps =>
    match resolveParsed32 sources names p with
    | .error e => .error e
    | .ok m => addParsed32 sources names (g.addMapping m) ps

/-- `from_source_map`, `source_map_generator.rs:253-318`. -/
def Generator.fromSourceMap32 (sources contents : List Int) (mappings : Str) (names : List Int)
    (file : Option Int) (sourceRoot : Option Str) (checkDup : Bool) : M Generator :=
  let g := registerSources checkDup (Generator.new file sourceRoot true) sources contents
  let sources := if checkDup then dedup [] sources else sources
  let names := if checkDup then dedup [] names else names
  match parseMappings mappings with
  | none => .error .vlq
  | some ps => addParsed32 sources names g ps

/-! ## Nodes of given maps: `src/source_map/from_string_with_source_map.rs` -/

/-- `fsTail` with `generated_position.1 as i32`, `from_string_with_source_map.rs:81-102`. -/
def fsTail32 (st : FsState) (m : Mapping) : M FsState :=
  let st := skipLines (m.generated.1 - st.lastPos.1) st
  if st.lastPos.2 < m.generated.2 then
    match splitStr st.next.text (i32 m.generated.2) st.next.sbc with
    | .error e => .error e
    | .ok r =>
      let (l, rr, _, rs) := r.orAll
      .ok { st with children := addStrChild st.children l
                    next := { st.next with text := rr, sbc := rs }
                    lastPos := (st.lastPos.1, m.generated.2)
                    lastMapping := some m }
  else .ok { st with lastMapping := some m }

/-- `fsStep` with `generated_position.1 as i32 - last_generated_position.1 as i32`,
`from_string_with_source_map.rs:51-103`. -/
def fsStep32 (st : FsState) (m : Mapping) : M FsState :=
  match st.lastMapping with
  | some lm =>
    if st.lastPos.1 < m.generated.1 then
      let (nx, ls) := popLine st.lines
      fsTail32 { st with children := addMappingWithCode st.children (some lm) st.next.text
                         next := nx, lines := ls
                         lastPos := (st.lastPos.1 + 1, 0) } m
    else
      match splitStr st.next.text (i32 (i32 m.generated.2 - i32 st.lastPos.2)) st.next.sbc with
      | .error e => .error e
      | .ok r =>
        let (l, rr, _, rs) := r.orAll
        .ok { st with children := addMappingWithCode st.children (some lm) l
                      next := { st.next with text := rr, sbc := rs }
                      lastPos := (st.lastPos.1, m.generated.2)
                      lastMapping := some m }
  | none => fsTail32 st m

/-- The loop, `from_string_with_source_map.rs:51-103`. -/
def fsLoop32 : FsState → List Mapping → M FsState
  | st, [] => .ok st
  | st, m :: ms =>
    match fsStep32 st m with
    | .error e => .error e
    | .ok st => fsLoop32 st ms

/-- `from_string_with_source_map_generator`, `from_string_with_source_map.rs:6-123`. -/
def fromStringWithGenerator32 (code : Str) (g : Generator) : M SmNode :=
  let (nx, ls) := popLine (codeLines code)
  match fsLoop32 { children := [], lastPos := (1, 0), lastMapping := none, next := nx, lines := ls }
      g.mappings.list with
  | .error e => .error e
  | .ok st => .ok (.node none none none g.contents (fsFinish st))

/-! ## List maps: `src/source_list_map/*` -/

/-- `SourceNode::merge` with a source node, `src/source_list_map/source_node.rs:51-63`. -/
def LSource.mergeSource32 (n o : LSource) : Option LSource :=
  if n.source = o.source ∧ n.endsNl = true ∧ usize32 (n.startLine + n.numLines) = o.startLine then
    some { n with code := n.code ++ o.code, numLines := n.numLines + o.numLines, endsNl := o.endsNl }
  else none

/-- `SourceNode::merge` with a single-line node, `src/source_list_map/source_node.rs:65-83`. -/
def LSource.mergeSingle32 (n : LSource) (o : LSingle) : Option LSource :=
  if n.source = o.source ∧ n.endsNl = true ∧ usize32 (n.startLine + n.numLines) = o.line ∧ o.numLines ≤ 1 then
    some { n with code := n.code ++ o.code, numLines := n.numLines + o.numLines, endsNl := o.endsNl }
  else none

/-- `SingleLineNode::merge`, `src/source_list_map/single_line_node.rs:44-76`. -/
def LSingle.mergeSingle32 (n o : LSingle) : Option LNode :=
  if n.source = o.source ∧ n.original = o.original then
    if n.line = o.line then
      some (.single { n with code := n.code ++ o.code, numLines := n.numLines + o.numLines,
                             endsNl := o.endsNl })
    else if usize32 (n.line + 1) = o.line ∧ n.endsNl = true ∧ n.numLines = 1 ∧ o.numLines ≤ 1 then
      some (.source (LSource.new (n.code ++ o.code) n.source n.original n.line))
    else none
  else none

/-- The `merge` methods: `code_node.rs:27-35`, `source_node.rs:43-49`, `single_line_node.rs:44-49`. -/
def LNode.merge32 : LNode → LNode → Option LNode
  | .code a, .code b => some (.code (a ++ b))
  | .source n, .source o => (n.mergeSource32 o).map .source
  | .source n, .single o => (n.mergeSingle32 o).map .source
  | .single n, .single o => n.mergeSingle32 o
  | _, _ => none

/-- `SourceNode::get_mappings`, `src/source_list_map/source_node.rs:89-136`:
`current_original_line = starting_line + lines`, minus 1, plus 1 again if the last line is unfinished. -/
def LSource.mappings32 (c : MapCtx) (n : LSource) : Str × MapCtx :=
  if n.code.isEmpty then ([], c)
  else
    let (i, c) := c.ensureSource n.source n.original
    let hd := headSeg c i n.startLine
    let u := unfinishedLines n.code
    let mid := (List.replicate (n.numLines - 1) nextLineSeg).flatten
    let tl := if u = 0 then [';'] else if n.numLines ≠ 0 then nextLineSeg else []
    let line := usize32 (n.startLine + n.numLines)
    let line := toUsize ((line : Int) - 1)
    (hd ++ mid ++ tl,
     { c with source := i, unfinished := u, origLine := if u = 0 then line else usize32 (line + 1) })

/-- Dispatch of `to_string_with_source_map`, `src/source_list_map/source_list_map.rs:206-217`. -/
def LNode.mappings32 (c : MapCtx) : LNode → Str × MapCtx
  | .source n => n.mappings32 c
  | .code s => codeMappings c s
  | .single n => n.mappings c
  | _ => ([], c)

/-- Loop of `source_list_map.rs:205-217`. -/
def slmMappings32 : MapCtx → Slm → Str × MapCtx
  | c, [] => ([], c)
  | c, n :: ns =>
    let (s, c) := n.mappings32 c
    let (s', c) := slmMappings32 c ns
    (s ++ s', c)

/-- `to_string_with_source_map`, `source_list_map.rs:191-233`. -/
def slmToStringWithSourceMap32 (m : Slm) (file : Option Int) : StringWithSourceMap :=
  let (mappings, c) := slmMappings32 MapCtx.new m
  { source := slmText m
    map := { version := 3
             file := some (file.getD (-1))
             sources := c.sources.map fun p => p.1.getD (-1)
             sourcesContent := c.sources.filterMap fun p => p.2.2
             mappings
             names := []
             sourceRoot := none } }

/-- Loop of `SourceNode::get_normalized_nodes`, `src/source_list_map/source_node.rs:143-154`. -/
def normLines32 (source original : Option Int) (endsNl : Bool) : Nat → List Str → List LNode
  | _, [] => []
  | cur, [l] => if endsNl then [] else [.single (LSingle.new l source original cur)]
  | cur, l :: ls =>
    .single (LSingle.new l source original cur) :: normLines32 source original endsNl (usize32 (cur + 1)) ls

/-- `get_normalized_nodes`: `source_node.rs:138-156`, `code_node.rs:67-69`, `single_line_node.rs:135-137`. -/
def LNode.normalized32 : LNode → List LNode
  | .code s => [.code s]
  | .source n => normLines32 n.source n.original n.endsNl n.startLine (splitKeep '\n' n.code)
  | .single n => [.single n]
  | _ => []

/-- One iteration of `source_list_map.rs:135-177`. -/
def pushMerge32 (rev : List LNode) : Option LNode → List LNode
  | none => rev
  | some n =>
    match rev with
    | [] => [n]
    | last :: rest =>
      match last.merge32 n with
      | some m => m :: rest
      | none => n :: last :: rest

/-- Loop of `source_list_map.rs:134-177`. -/
def mapLoop32 {σ : Type _} (f : σ → Str → Str × σ) : σ → List LNode → List LNode → List LNode × σ
  | st, rev, [] => (rev, st)
  | st, rev, n :: ns =>
    let (o, st) := n.mapCode f st
    mapLoop32 f st (pushMerge32 rev o) ns

/-- `map_generated_code`, `source_list_map.rs:115-179`. -/
def slmMapGenerated32 {σ : Type _} (f : σ → Str → Str × σ) (st : σ) (m : Slm) : Slm × σ :=
  let (rev, st) := mapLoop32 f st [] (m.map LNode.normalized32).flatten
  (rev.reverse, st)

/-- `add_code`, `src/source_list_map/from_string_with_source_map.rs:108-128`. -/
def lfAddCode32 (st : LfState) (code : Str) : LfState :=
  match st.rev with
  | .code s :: rest => { st with rev := .code (s ++ code) :: rest }
  | .source n :: rest =>
    if isBlank code then
      { st with rev := .source (n.addCode code) :: rest, nodeLine := usize32 (st.nodeLine + 1) }
    else { st with rev := .code code :: st.rev }
  | rev => { st with rev := .code code :: rev }

/-- `add_source`, `from_string_with_source_map.rs:131-153`. -/
def lfAddSource32 (st : LfState) (code : Str) (source original : Option Int) (line : Nat) : LfState :=
  match st.rev with
  | .source n :: rest =>
    if n.source = source ∧ st.nodeLine = line then
      { st with rev := .source (n.addCode code) :: rest, nodeLine := usize32 (st.nodeLine + 1) }
    else { st with rev := .source (LSource.new code source original line) :: st.rev,
                   nodeLine := usize32 (line + 1) }
  | rev => { st with rev := .source (LSource.new code source original line) :: rev,
                     nodeLine := usize32 (line + 1) }

/-- One iteration of the segment loop, `from_string_with_source_map.rs:25-82`. -/
def lfSegment32 (sources contents : List Int) (line : Str) (added : Bool) (st : LfState) (rest : Str) :
    M (Str × Bool × LfState) :=
  match (if rest.head? ≠ some ',' then
      (match vlqDecode rest with | some (_, r) => (.ok r : M Str) | none => .error .vlq)
    else .ok rest) with
  | .error e => .error e
  | .ok [] => .ok ([], added, st)
  | .ok (c :: r) =>
    if c = ',' then .ok (r, added, st)
    else
      match vlqDecode (c :: r) with
      | none => .error .vlq
      | some (v, rest) =>
        let si := toUsize (v + st.curSource)
        let st := { st with curSource := si }
        match (if rest ≠ [] ∧ rest.head? ≠ some ',' then
            (match vlqDecode rest with
              | some (v, r) => (.ok (v + st.curLine, r) : M (Int × Str))
              | none => .error .vlq)
          else .ok (st.curLine, rest)) with
        | .error e => .error e
        | .ok (lp, rest) =>
          let st := { st with curLine := lp }
          let rest := skipToComma rest
          if added then .ok (rest, added, st)
          else .ok (rest, true, lfAddSource32 st line sources[si]? contents[si]? (toUsize lp))

/-- The segment loop, `from_string_with_source_map.rs:25-82`. -/
def lfSegments32 (sources contents : List Int) (line : Str) :
    Nat → Bool → LfState → Str → M (Bool × LfState)
  | _, added, st, [] => .ok (added, st)
  | 0, _, _, _ :: _ => .error .fuel
  | fuel + 1, added, st, c :: cs =>
    match lfSegment32 sources contents line added st (c :: cs) with
    | .error e => .error e
    | .ok (rest, added, st) => lfSegments32 sources contents line fuel added st rest

/-- One code line with its mapping line, `from_string_with_source_map.rs:20-89`. -/
def lfLine32 (sources contents : List Int) (st : LfState) (line mapping : Str) : M LfState :=
  if mapping.isEmpty then .ok (lfAddCode32 st line)
  else
    match lfSegments32 sources contents line mapping.length false st mapping with
    | .error e => .error e
    | .ok (added, st) => .ok (if added then st else lfAddCode32 st line)

/-- The loop over mapping lines, `from_string_with_source_map.rs:19-90`. -/
def lfLines32 (sources contents : List Int) : LfState → List Str → List Str → M (LfState × List Str)
  | st, lines, [] => .ok (st, lines)
  | st, [], _ :: ms => lfLines32 sources contents st [] ms
  | st, l :: ls, m :: ms =>
    match lfLine32 sources contents st l m with
    | .error e => .error e
    | .ok st => lfLines32 sources contents st ls ms

/-- The loop over the remaining lines, `from_string_with_source_map.rs:92-103`. -/
def lfRest32 : LfState → List Str → LfState
  | st, [] => st
  | st, l :: ls =>
    if isBlank ('\n' :: l) then lfRest32 (lfAddCode32 st l) ls
    else lfAddCode32 st (l ++ ls.flatten)

/-- `from_string_with_source_map`, `from_string_with_source_map.rs:6-105`. -/
def slmFromString32 (code : Str) (sources contents : List Int) (mappings : Str) : M Slm :=
  match lfLines32 sources contents { rev := [], curLine := 1, curSource := 0, nodeLine := 0 }
      (splitKeep '\n' code) (splitDrop ';' mappings) with
  | .error e => .error e
  | .ok (st, rest) => .ok (lfRest32 st rest).rev.reverse

/-! ## Replacements: `src/replace_source.rs` -/

/-- `(repl.0 >> 4) as i32`, `src/replace_source.rs:71,110,122,213`. -/
def Repl.start32 (r : Repl) : Int := i32 (r.s / 16)

/-- `(repl.1 >> 4) as i32 + 1`, `src/replace_source.rs:67,109,214`. -/
def Repl.stop32 (r : Repl) : Int := i32 (i32 (r.e / 16) + 1)

/-- Loop of `replace_string`, `src/replace_source.rs:64-78`. -/
def replLoop32 : List (Str × Bool) → List Repl → M (List (Str × Bool))
  | stack, [] => .ok stack
  | [], _ :: _ => .error .unwrap
  | (rem, sbc) :: stack, r :: rs =>
    match splitStr rem r.stop32 sbc with
    | .error e => .error e
    | .ok sp1 =>
      let (l1, r1, f1, g1) := sp1.orAll
      match splitStr l1 r.start32 f1 with
      | .error e => .error e
      | .ok sp2 =>
        let (l2, _, f2, _) := sp2.orAll
        replLoop32 ((l2, f2) :: (r.text, false) :: (r1, g1) :: stack) rs

/-- `replace_string`, `src/replace_source.rs:60-84`. -/
def replaceString32 (s : Str) (sorted : List Repl) : M Str :=
  match replLoop32 [(s, false)] sorted with
  | .error e => .error e
  | .ok stack => .ok (stack.map Prod.fst).flatten

/-- Loop of `ReplaceSource::node`, `src/replace_source.rs:107-133`. -/
def replNodeLoop32 : List SmNode → List Repl → M (List SmNode)
  | stack, [] => .ok stack
  | [], _ :: _ => .error .unwrap
  | rem :: stack, r :: rs =>
    match splitSm rem r.stop32 with
    | .ok (l1, r1) =>
      match splitSm l1 r.start32 with
      | .ok (l2, r2) =>
        match replacementNode r2 r.text with
        | .error e => .error e
        | .ok n => replNodeLoop32 (l2 :: n :: r1 :: stack) rs
      | .error (_, l1) =>
        match replacementNode r1 r.text with
        | .error e => .error e
        | .ok n => replNodeLoop32 (l1 :: n :: r1 :: stack) rs
    | .error (_, rem) =>
      match splitSm rem r.start32 with
      | .ok (l2, r2) =>
        match replacementNode r2 r.text with
        | .error e => .error e
        | .ok n => replNodeLoop32 (l2 :: n :: stack) rs
      | .error (_, rem) => replNodeLoop32 (rem :: .str r.text :: stack) rs

/-- `ReplaceSource::node`, `src/replace_source.rs:103-136`. -/
def replaceNode32 (inner : SmNode) (sorted : List Repl) : M SmNode :=
  match replNodeLoop32 [inner] sorted with
  | .error e => .error e
  | .ok stack => .ok (SmNode.mkVec none none none stack)

/-- Loop of `ReplaceMappingFunction::map`, `src/replace_source.rs:211-243`; all numbers are `i32`. -/
def rmLoop32 (cur : Int) (s : Str) : List Repl → Str × RmState
  | [] => (s, { cur, pending := [], remove := 0 })
  | r :: rs =>
    match stepChars (i32 (r.start32 - cur)) s with
    | .error (_, chars) => (s, { cur := i32 (cur + chars), pending := r :: rs, remove := 0 })
    | .ok (pre, s1) =>
      let cur := i32 (cur + pre.length)
      match stepChars (i32 (r.stop32 - cur)) s1 with
      | .ok (skip, s2) =>
        let (out, st) := rmLoop32 (i32 (cur + skip.length)) s2 rs
        (pre ++ r.text ++ out, st)
      | .error (n, chars) =>
        (pre ++ r.text, { cur := i32 (cur + chars), pending := rs, remove := max n 0 })

/-- `ReplaceMappingFunction::map`, `src/replace_source.rs:176-244`. -/
def rmMap32 (st : RmState) (code : Str) : Str × RmState :=
  if st.remove > 0 then
    match stepChars st.remove code with
    | .ok (skip, rest) => rmLoop32 (i32 (st.cur + skip.length)) rest st.pending
    | .error (n, chars) => ([], { st with cur := i32 (st.cur + chars), remove := n })
  else rmLoop32 st.cur code st.pending

/-- `ReplaceSource::list_map`, `src/replace_source.rs:138-154`. -/
def replaceListMap32 (inner : Slm) (sorted : List Repl) : Slm :=
  let (m, st) := slmMapGenerated32 rmMap32 { cur := 0, pending := sorted.reverse, remove := 0 } inner
  let extra := (st.pending.map Repl.text).flatten
  if extra.isEmpty then m else slmAddStr m extra none none

/-- `PrefixSource::list_map`, `src/prefix_source.rs:90-96`. -/
def prefixListMap32 (pre : Str) (inner : Slm) : Slm := (slmMapGenerated32 (prefixMap pre) () inner).1

/-! ## `SourceMapSource` and the reads of all kinds -/

/-- `get_generator`, `src/source_map_source.rs:58-73`. -/
def SmHolder.getGen32 (h : SmHolder) : M (Generator × SmHolder) :=
  match h.gen with
  | some g => .ok (g, h)
  | none =>
    match h.data with
    | none => .error .message
    | some d =>
      match Generator.fromSourceMap32 d.sources d.contents d.mappings d.names none none true with
      | .error e => .error e
      | .ok g => .ok (g, { h with gen := some g })

/-- `SourceMapSource::node`, `src/source_map_source.rs:172-186`. -/
def Sms.node32 (s : Sms) : M (SmNode × Sms) :=
  match s.map.getGen32 with
  | .error e => .error e
  | .ok (g, map) =>
    match s.inner with
    | none =>
      match fromStringWithGenerator32 s.value g with
      | .error e => .error e
      | .ok n => .ok (n, { s with map })
    | some ih =>
      match ih.getGen32 with
      | .error e => .error e
      | .ok (ig, ih) =>
        let g := if s.original.isSome then g.setSourceContent s.name s.original else g
        match (if s.innerApplied then (.ok (g, ig) : M _)
               else g.applySourceMap ig (some s.name)) with
        | .error e => .error e
        | .ok (g, ig) =>
          match fromStringWithGenerator32 s.value g with
          | .error e => .error e
          | .ok n =>
            .ok (n, { s with map := { map with gen := some g }
                             inner := some { ih with gen := some ig }
                             innerApplied := true })

/-- `SourceMapSource::list_map`, `src/source_map_source.rs:188-204`. -/
def Sms.listMap32 (s : Sms) (module_ : Bool) : M (Slm × Sms) :=
  if !module_ then .ok (slmNewStr s.value (some s.name) (some s.valueIdx), s)
  else
    match s.map.getData with
    | .error e => .error e
    | .ok (d, map) =>
      match slmFromString32 s.value d.sources d.contents d.mappings with
      | .error e => .error e
      | .ok m => .ok (m, { s with map })

mutual
  /-- `Source::source`, `src/source.rs:28-40` and the `source` methods. -/
  def Tree.source32 : Tree → M Str
    | .str s => .ok s
    | .raw v => .ok v
    | .original v _ _ => .ok v
    | .l2l v _ _ => .ok v
    | .sms s => .ok s.value
    | .prefixed p t => t.source32.map fun s => makePrefixed s p true
    | .replace t cs => t.source32.bind fun s => replaceString32 s (sortedCalls cs)
    | .concat ts => (Tree.sources32 ts).map List.flatten
  /-- The children of a concatenation, `src/concat_source.rs:29-35`. -/
  def Tree.sources32 : List Tree → M (List Str)
    | [] => .ok []
    | t :: ts => t.source32.bind fun s => (Tree.sources32 ts).map (s :: ·)
end

mutual
  /-- `Source::node`, `src/source.rs:70-82` and the `node` methods. -/
  def Tree.node32 (columns module_ : Bool) : Tree → M SmNode
    | .str _ => .error .unreachable
    | .raw v => .ok (rawNode v)
    | .original v n i => .ok (originalNode columns v n i)
    | .l2l v n o => .ok (l2lNode v n o)
    | .sms s => s.node32.map Prod.fst
    | .prefixed p t => (t.node32 columns module_).map (prefixNode p)
    | .replace t cs => (t.node32 columns module_).bind fun n => replaceNode32 n (sortedCalls cs)
    | .concat ts => (Tree.nodes32 columns module_ ts).map (SmNode.mkVec none none none)
  /-- The children of a concatenation, `src/concat_source.rs:66-76`. -/
  def Tree.nodes32 (columns module_ : Bool) : List Tree → M (List SmNode)
    | [] => .ok []
    | .str s :: ts => (Tree.nodes32 columns module_ ts).map (SmNode.str s :: ·)
    | t :: ts => (t.node32 columns module_).bind fun n =>
        (Tree.nodes32 columns module_ ts).map (n :: ·)
end

mutual
  /-- `Source::list_map`, `src/source.rs:56-68` and the `list_map` methods. -/
  def Tree.listMap32 (columns module_ : Bool) : Tree → M Slm
    | .str _ => .error .unreachable
    | .raw v => .ok (rawListMap v)
    | .original v n i => .ok (originalListMap v n i)
    | .l2l v n o => .ok (l2lListMap v n o)
    | .sms s => (s.listMap32 module_).map Prod.fst
    | .prefixed p t => (t.listMap32 columns module_).map (prefixListMap32 p)
    | .replace t cs => (t.listMap32 columns module_).map fun m => replaceListMap32 m (sortedCalls cs)
    | .concat ts => (Tree.listMaps32 columns module_ ts).map (concatMaps [])
  /-- The children of a concatenation, `src/concat_source.rs:47-57`. -/
  def Tree.listMaps32 (columns module_ : Bool) : List Tree → M (List (Str ⊕ Slm))
    | [] => .ok []
    | .str s :: ts => (Tree.listMaps32 columns module_ ts).map (.inl s :: ·)
    | t :: ts => (t.listMap32 columns module_).bind fun n =>
        (Tree.listMaps32 columns module_ ts).map (.inr n :: ·)
end

end WS
