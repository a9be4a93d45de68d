import Verif.Model.SmNode
import Verif.Model.Slm
/-! # The source kinds, without sharing

`src/original_source.rs`, `src/line_to_line_mapped_source.rs`, `src/raw_source.rs`,
`src/prefix_source.rs`, `src/replace_source.rs`, `src/source_map_source.rs`. -/

namespace WS

/-! ## OriginalSource, LineToLineMappedSource, RawSource -/

/-- Separator class of the regular expression `[^\n\r;{}]*[\n\r;{}]*`, `src/original_source.rs:8`. -/
def isSep (c : Char) : Bool := c == '\n' || c == '\r' || c == ';' || c == '{' || c == '}'

/-- `SPLITTER_REGEX.find(line)` and the cut at its end, `src/original_source.rs:53-58`: the longest
run of non-separators followed by the longest run of separators (leftmost greedy match). -/
def splitItem (line : Str) : Str × Str :=
  let a := line.takeWhile (!isSep ·)
  let r := line.dropWhile (!isSep ·)
  (a ++ r.takeWhile isSep, r.dropWhile isSep)

/-- The items of a line: `while !line.is_empty()` of `src/original_source.rs:52-58`; every item is
non-empty, the first argument bounds their number. -/
def lineItems : Nat → Str → List Str
  | _, [] => []
  | 0, _ :: _ => []
  | fuel + 1, c :: cs =>
    let (item, rest) := splitItem (c :: cs)
    item :: lineItems fuel rest

/-- Children of the per-line node, `src/original_source.rs:60-71`: blank items are plain strings
and do not advance `pos`; the others are mapped and advance `pos` by their byte length. -/
def originalItems (name : Int) (lineNo : Nat) : Nat → List SmNode → List Str → List SmNode
  | _, acc, [] => acc
  | pos, acc, item :: items =>
    if isBlank item then originalItems name lineNo pos (addStrChild acc item) items
    else originalItems name lineNo (pos + blen item)
      (acc ++ [SmNode.mkStr (some (lineNo, pos)) (some name) none item]) items

/-- The node of one line, `src/original_source.rs:41-74`. -/
def originalLine (columns : Bool) (name : Int) (lineNo : Nat) (line : Str) : SmNode :=
  if columns then
    .node none none none [] (originalItems name lineNo 0 [] (lineItems line.length line))
  else SmNode.mkStr (some (lineNo, 0)) (some name) none line

/-- `for (i, line) in ….enumerate()`, `src/original_source.rs:40-75`; lines numbered from the first
argument. -/
def originalLines (columns : Bool) (name : Int) : Nat → List Str → List SmNode
  | _, [] => []
  | i, l :: ls => originalLine columns name i l :: originalLines columns name (i + 1) ls

/-- `OriginalSource::node`, `src/original_source.rs:37-78`. -/
def originalNode (columns : Bool) (value : Str) (name valueIdx : Int) : SmNode :=
  .node none none none [(name, valueIdx)] (originalLines columns name 1 (splitKeep '\n' value))

/-- `OriginalSource::list_map`, `src/original_source.rs:80-86`. -/
def originalListMap (value : Str) (name valueIdx : Int) : Slm :=
  slmNewStr value (some name) (some valueIdx)

/-- `LineToLineMappedSource::node`, `src/line_to_line_mapped_source.rs:32-47`. -/
def l2lNode (value : Str) (name original : Int) : SmNode :=
  .node none none none [(name, original)] (originalLines false name 1 (splitKeep '\n' value))

/-- `LineToLineMappedSource::list_map`, `src/line_to_line_mapped_source.rs:49-55`. -/
def l2lListMap (value : Str) (name original : Int) : Slm :=
  slmNewStr value (some name) (some original)

/-- `RawSource::node`, `src/raw_source.rs:28-30`. -/
def rawNode (value : Str) : SmNode := SmNode.mkStr none none none value

/-- `RawSource::list_map`, `src/raw_source.rs:32-38`. -/
def rawListMap (value : Str) : Slm := slmNewStr value none none

/-! ## PrefixSource -/

/-- Loop of `make_prefixed_string`, `src/prefix_source.rs:14-22`, over the pieces of the text;
`lines.rest` is what the remaining pieces join to. -/
def prefixLoop (pre : Str) : List Str → Str
  | [] => []
  | l :: ls => l ++ (if !ls.flatten.isEmpty then pre else []) ++ prefixLoop pre ls

/-- `make_prefixed_string`, `src/prefix_source.rs:7-24`. -/
def makePrefixed (s pre : Str) (front : Bool) : Str :=
  (if front then pre else []) ++ prefixLoop pre (splitKeep '\n' s)

mutual
  /-- `clone_and_prefix`, `src/prefix_source.rs:26-52`, threading `append`. -/
  def cloneAndPrefix (pre : Str) : SmNode → Int → SmNode × Int
    | .str s, append =>
      let nl := endsNl s
      let (s', append) := if append > 0 then (makePrefixed s pre true, append - 1)
        else (makePrefixed s pre false, append)
      (.str s', if nl then append + 1 else append)
    | .node p src n c ch, append =>
      let (ch', append) := cloneAndPrefixList pre ch append
      (.node p src n c ch', append)
  /-- The loop over children, `src/prefix_source.rs:43-46`. -/
  def cloneAndPrefixList (pre : Str) : List SmNode → Int → List SmNode × Int
    | [], append => ([], append)
    | c :: cs, append =>
      let (c', append) := cloneAndPrefix pre c append
      let (cs', append) := cloneAndPrefixList pre cs append
      (c' :: cs', append)
end

/-- `PrefixSource::node` given the inner node, `src/prefix_source.rs:75-88`. -/
def prefixNode (pre : Str) (inner : SmNode) : SmNode :=
  SmNode.mkVec none none none [(cloneAndPrefix pre inner 1).1]

/-- `PrefixMappingFunction::map`, `src/prefix_source.rs:103-107`. -/
def prefixMap (pre : Str) (st : Unit) (code : Str) : Str × Unit := (makePrefixed code pre true, st)

/-- `PrefixSource::list_map` given the inner list map, `src/prefix_source.rs:90-96`. -/
def prefixListMap (pre : Str) (inner : Slm) : Slm := (slmMapGenerated (prefixMap pre) () inner).1

/-! ## ReplaceSource -/

/-- A replacement `(start, end, value, idx)`, `src/replace_source.rs:14`; `s`, `e` are shifted by
four bits with the fractional order added. Simplification: unbounded integers; the code uses `i64`
and converts `(x >> 4)` to `i32`, so positions are assumed to lie in `[-2^31, 2^31 - 2]`. -/
structure Repl where
  s : Int
  e : Int
  text : Str
  idx : Nat
  deriving DecidableEq, Repr

/-- `(repl.0 >> 4) as i32`, `src/replace_source.rs:71,110,122,213` (arithmetic shift = floor). -/
def Repl.start (r : Repl) : Int := r.s / 16

/-- `(repl.1 >> 4) as i32 + 1`, `src/replace_source.rs:67,109,214`. -/
def Repl.stop (r : Repl) : Int := r.e / 16 + 1

/-- `ReplaceSource::replace`, `src/replace_source.rs:27-34`: the pushed element. -/
def mkReplace (n : Nat) (start stop : Int) (text : Str) (ordS ordE : Int) : Repl :=
  { s := start * 16 + ordS, e := stop * 16 + ordE, text, idx := n }

/-- `ReplaceSource::insert`, `src/replace_source.rs:36-43`: the pushed element. -/
def mkInsert (n : Nat) (pos : Int) (text : Str) (ord : Int) : Repl :=
  { s := pos * 16 + ord, e := (pos - 1) * 16 + ord, text, idx := n }

/-- The comparison of `sort_replacements`, `src/replace_source.rs:48-56`: by end, start, index, all
descending. -/
def Repl.cmp (a b : Repl) : Ordering :=
  if a.e ≠ b.e then compare b.e a.e
  else if a.s ≠ b.s then compare b.s a.s
  else compare b.idx a.idx

/-- `≤` of `Repl.cmp`. -/
def Repl.le (a b : Repl) : Bool := (Repl.cmp a b).isLE

/-- `sort_replacements`, `src/replace_source.rs:45-58`. -/
def sortRepls (rs : List Repl) (isSorted : Bool) : List Repl :=
  if isSorted then rs else sortBy Repl.le rs

/-- Loop of `replace_string`, `src/replace_source.rs:64-78`; the stack `results` has its top
first. -/
def replLoop : List (Str × Bool) → List Repl → M (List (Str × Bool))
  | stack, [] => .ok stack
  | [], _ :: _ => .error .unwrap
  | (rem, sbc) :: stack, r :: rs =>
    match splitStr rem r.stop sbc with
    | .error e => .error e
    | .ok sp1 =>
      let (l1, r1, f1, g1) := sp1.orAll
      match splitStr l1 r.start f1 with
      | .error e => .error e
      | .ok sp2 =>
        let (l2, _, f2, _) := sp2.orAll
        replLoop ((l2, f2) :: (r.text, false) :: (r1, g1) :: stack) rs

/-- `replace_string` with the replacements already sorted, `src/replace_source.rs:60-84`. -/
def replaceString (s : Str) (sorted : List Repl) : M Str :=
  match replLoop [(s, false)] sorted with
  | .error e => .error e
  | .ok stack => .ok (stack.map Prod.fst).flatten

/-- `split_string_slice(n, pos, false)`, `src/utils.rs:40-74` with the flag of
`src/replace_source.rs:303`. -/
def splitChars (s : Str) (pos : Int) : Except Int (Str × Str) :=
  if pos ≤ 0 then .ok ([], s)
  else if pos.toNat ≤ s.length then .ok (s.take pos.toNat, s.drop pos.toNat)
  else .error (pos - s.length)

mutual
  /-- `split_sourcenode`, `src/replace_source.rs:247-309`: `Ok((left, right))` or
  `Err((missing, node))`. -/
  def splitSm : SmNode → Int → Except (Int × SmNode) (SmNode × SmNode)
    | .str s, pos =>
      match splitChars s pos with
      | .ok (l, r) => .ok (.str l, .str r)
      | .error p => .error (p, .str s)
    | .node p src n c ch, pos =>
      match splitSmList ch pos with
      | .ok (ls, rs) => .ok (.node p src n c ls, .node p src n [] rs)
      | .error (q, ls) => .error (q, .node p src n c ls)
  /-- The loop over children, `src/replace_source.rs:260-276`. -/
  def splitSmList : List SmNode → Int → Except (Int × List SmNode) (List SmNode × List SmNode)
    | [], pos => .error (pos, [])
    | x :: xs, pos =>
      match splitSm x pos with
      | .ok (l, r) => .ok ([l], r :: xs)
      | .error (p, x') =>
        match splitSmList xs p with
        | .ok (ls, rs) => .ok (x' :: ls, rs)
        | .error (q, ls) => .error (q, x' :: ls)
end

/-- `replacement_to_sourcenode`, `src/replace_source.rs:312-323`. -/
def replacementNode (old : SmNode) (text : Str) : M SmNode :=
  match old with
  | .str _ => .error .unreachable
  | .node .. =>
    let g := (old.toStringWithGenerator none none).2
    let m := (g.originalPositionFor 1 0).1
    .ok (SmNode.mkStr m.original m.source none text)

/-- Loop of `ReplaceSource::node`, `src/replace_source.rs:107-133`; the stack has its top first. -/
def replNodeLoop : List SmNode → List Repl → M (List SmNode)
  | stack, [] => .ok stack
  | [], _ :: _ => .error .unwrap
  | rem :: stack, r :: rs =>
    match splitSm rem r.stop with
    | .ok (l1, r1) =>
      match splitSm l1 r.start with
      | .ok (l2, r2) =>
        match replacementNode r2 r.text with
        | .error e => .error e
        | .ok n => replNodeLoop (l2 :: n :: r1 :: stack) rs
      | .error (_, l1) =>
        match replacementNode r1 r.text with
        | .error e => .error e
        | .ok n => replNodeLoop (l1 :: n :: r1 :: stack) rs
    | .error (_, rem) =>
      match splitSm rem r.start with
      | .ok (l2, r2) =>
        match replacementNode r2 r.text with
        | .error e => .error e
        | .ok n => replNodeLoop (l2 :: n :: stack) rs
      | .error (_, rem) => replNodeLoop (rem :: .str r.text :: stack) rs

/-- `ReplaceSource::node` given the inner node and the sorted replacements,
`src/replace_source.rs:103-136`. -/
def replaceNode (inner : SmNode) (sorted : List Repl) : M SmNode :=
  match replNodeLoop [inner] sorted with
  | .error e => .error e
  | .ok stack => .ok (SmNode.mkVec none none none stack)

/-- State of `ReplaceMappingFunction`, `src/replace_source.rs:157-162`: `pending` is
`replacements[replacement_idx], …, replacements[0]`. -/
structure RmState where
  cur : Int
  pending : List Repl
  remove : Int
  deriving DecidableEq, Repr

/-- The closure `code_step_n_chars`, `src/replace_source.rs:181-192`: consumed and remaining
characters, or (missing, consumed). -/
def stepChars (n : Int) (s : Str) : Except (Int × Int) (Str × Str) :=
  if n ≤ 0 then .ok ([], s)
  else if n.toNat ≤ s.length then .ok (s.take n.toNat, s.drop n.toNat)
  else .error (n - s.length, s.length)

/-- Loop of `ReplaceMappingFunction::map`, `src/replace_source.rs:211-243`. At the loop head
`start_bound` is the iterator position, so the state of both is the remaining text. -/
def rmLoop (cur : Int) (s : Str) : List Repl → Str × RmState
  | [] => (s, { cur, pending := [], remove := 0 })
  | r :: rs =>
    match stepChars (r.start - cur) s with
    | .error (_, chars) => (s, { cur := cur + chars, pending := r :: rs, remove := 0 })
    | .ok (pre, s1) =>
      let cur := cur + pre.length
      match stepChars (r.stop - cur) s1 with
      | .ok (skip, s2) =>
        let (out, st) := rmLoop (cur + skip.length) s2 rs
        (pre ++ r.text ++ out, st)
      | .error (n, chars) =>
        (pre ++ r.text, { cur := cur + chars, pending := rs, remove := max n 0 })

/-- `ReplaceMappingFunction::map`, `src/replace_source.rs:176-244`. -/
def rmMap (st : RmState) (code : Str) : Str × RmState :=
  if st.remove > 0 then
    match stepChars st.remove code with
    | .ok (skip, rest) => rmLoop (st.cur + skip.length) rest st.pending
    | .error (n, chars) => ([], { st with cur := st.cur + chars, remove := n })
  else rmLoop st.cur code st.pending

/-- `ReplaceSource::list_map` given the inner list map and the sorted replacements,
`src/replace_source.rs:138-154`. -/
def replaceListMap (inner : Slm) (sorted : List Repl) : Slm :=
  let (m, st) := slmMapGenerated rmMap { cur := 0, pending := sorted.reverse, remove := 0 } inner
  let extra := (st.pending.map Repl.text).flatten
  if extra.isEmpty then m else slmAddStr m extra none none

/-! ## SourceMapSource -/

/-- `SourceMapContent`, `src/source_map_source.rs:9-14`. -/
structure SmData where
  sources : List Int
  contents : List Int
  names : List Int
  mappings : Str
  deriving DecidableEq, Repr

/-- `SourceMap` (the pair of caches), `src/source_map_source.rs:17-20`. -/
structure SmHolder where
  data : Option SmData
  gen : Option Generator
  deriving DecidableEq, Repr

/-- `get_data`, `src/source_map_source.rs:49-56`. -/
def SmHolder.getData (h : SmHolder) : M (SmData × SmHolder) :=
  match h.data with
  | some d => .ok (d, h)
  | none =>
    match h.gen with
    | none => .error .message
    | some g =>
      match g.toSourceMap with
      | .error e => .error e
      | .ok (m, g) =>
        let d : SmData := ⟨m.sources, m.sourcesContent, m.names, m.mappings⟩
        .ok (d, { data := some d, gen := some g })

/-- `get_generator`, `src/source_map_source.rs:58-73`. -/
def SmHolder.getGen (h : SmHolder) : M (Generator × SmHolder) :=
  match h.gen with
  | some g => .ok (g, h)
  | none =>
    match h.data with
    | none => .error .message
    | some d =>
      match Generator.fromSourceMap d.sources d.contents d.mappings d.names none none true with
      | .error e => .error e
      | .ok g => .ok (g, { h with gen := some g })

/-- `SourceMapSource`, `src/source_map_source.rs:77-85`. -/
structure Sms where
  value : Str
  valueIdx : Int
  name : Int
  map : SmHolder
  original : Option Int
  inner : Option SmHolder
  innerApplied : Bool
  deriving DecidableEq, Repr

/-- `SourceMapSource::node`, `src/source_map_source.rs:172-186`. -/
def Sms.node (s : Sms) : M (SmNode × Sms) :=
  match s.map.getGen with
  | .error e => .error e
  | .ok (g, map) =>
    match s.inner with
    | none =>
      match fromStringWithGenerator s.value g with
      | .error e => .error e
      | .ok n => .ok (n, { s with map })
    | some ih =>
      match ih.getGen with
      | .error e => .error e
      | .ok (ig, ih) =>
        let g := if s.original.isSome then g.setSourceContent s.name s.original else g
        match (if s.innerApplied then (.ok (g, ig) : M _)
               else g.applySourceMap ig (some s.name)) with
        | .error e => .error e
        | .ok (g, ig) =>
          match fromStringWithGenerator s.value g with
          | .error e => .error e
          | .ok n =>
            .ok (n, { s with map := { map with gen := some g }
                             inner := some { ih with gen := some ig }
                             innerApplied := true })

/-- `SourceMapSource::list_map`, `src/source_map_source.rs:188-204`. -/
def Sms.listMap (s : Sms) (module_ : Bool) : M (Slm × Sms) :=
  if !module_ then .ok (slmNewStr s.value (some s.name) (some s.valueIdx), s)
  else
    match s.map.getData with
    | .error e => .error e
    | .ok (d, map) =>
      match slmFromString s.value d.sources d.contents d.mappings with
      | .error e => .error e
      | .ok m => .ok (m, { s with map })

end WS
