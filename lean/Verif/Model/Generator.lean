import Verif.Model.Mapping
import Verif.Model.Vlq
/-! # `src/source_map/source_map_generator.rs` -/

namespace WS

/-- `HashMap::entry(k).or_insert(v)` / `LinkedHashMap` likewise: keeps an existing value. -/
def amOrInsert {β : Type _} (l : List (Int × β)) (k : Int) (v : β) : List (Int × β) :=
  match l.lookup k with
  | some _ => l
  | none => l ++ [(k, v)]

/-- `HashMap::insert(k, v)`: overwrites an existing value. -/
def amInsert {β : Type _} (l : List (Int × β)) (k : Int) (v : β) : List (Int × β) :=
  match l.lookup k with
  | some _ => l.map fun p => if p.1 == k then (k, v) else p
  | none => l ++ [(k, v)]

/-- `HashMap::remove(k)`. -/
def amRemove {β : Type _} (l : List (Int × β)) (k : Int) : List (Int × β) :=
  l.filter fun p => p.1 != k

/-- `usize` of wasm32 from an integer: truncation modulo 2^32. -/
def toUsize (i : Int) : Nat := (i % 4294967296).toNat

/-- `SourceMap`, `src/types/source_map.rs:9-18`. -/
structure SourceMap where
  version : Int
  file : Option Int
  sourceRoot : Option Str
  sources : List Int
  sourcesContent : List Int
  names : List Int
  mappings : Str
  deriving DecidableEq, Repr

/-- `StringWithSourceMap`, `src/types/source_map.rs:3-7`. -/
structure StringWithSourceMap where
  source : Str
  map : SourceMap
  deriving DecidableEq, Repr

/-- `SourceMapGenerator`, `src/source_map/source_map_generator.rs:11-19`. Hash maps are association
lists. -/
structure Generator where
  file : Option Int
  sourceRoot : Option Str
  skipValidation : Bool
  sources : List (Int × Nat)
  names : List (Int × Nat)
  mappings : MappingList
  contents : List (Int × Int)
  deriving DecidableEq, Repr

/-- `SourceMapGenerator::new`, `source_map_generator.rs:22-36`. -/
def Generator.new (file : Option Int) (sourceRoot : Option Str) (skip : Bool) : Generator :=
  { file, sourceRoot, skipValidation := skip, sources := [], names := [],
    mappings := MappingList.new, contents := [] }

/-- `add_source`, `source_map_generator.rs:39-42`. -/
def Generator.addSource (g : Generator) (s : Int) : Generator :=
  { g with sources := amOrInsert g.sources s g.sources.length }

/-- `add_name`, `source_map_generator.rs:45-48`. -/
def Generator.addName (g : Generator) (n : Int) : Generator :=
  { g with names := amOrInsert g.names n g.names.length }

/-- `validate_mapping`, `source_map_generator.rs:94-108`. -/
def validateMapping (m : Mapping) : Bool :=
  match m.original with
  | some (ol, _) => m.source.isSome && decide (ol > 0) && decide (m.generated.1 > 0)
  | none => m.source.isNone && m.name.isNone && decide (m.generated.1 > 0)

/-- `add_mapping` without the validation, `source_map_generator.rs:55-58`. -/
def Generator.addMapping (g : Generator) (m : Mapping) : Generator :=
  let g := match m.source with | some s => g.addSource s | none => g
  let g := match m.name with | some n => g.addName n | none => g
  { g with mappings := g.mappings.add m }

/-- `add_mapping`, `source_map_generator.rs:50-59`: with the optional validation. -/
def Generator.addMappingV (g : Generator) (m : Mapping) : M Generator :=
  if !g.skipValidation && !validateMapping m then .error .unwrap else .ok (g.addMapping m)

/-- `set_source_content`, `source_map_generator.rs:61-67`. -/
def Generator.setSourceContent (g : Generator) (s : Int) (c : Option Int) : Generator :=
  match c with
  | some c => { g with contents := amOrInsert g.contents s c }
  | none => { g with contents := amRemove g.contents s }

/-- Running state of `serialize_mappings`, `source_map_generator.rs:112-115`. -/
structure SerState where
  gen : Nat × Nat := (1, 0)
  orig : Nat × Nat := (0, 0)
  name : Nat := 0
  source : Nat := 0
  deriving DecidableEq, Repr

/-- Separator written before a mapping, `source_map_generator.rs:120-136`. If the list were not
ordered the subtraction of line 122 would underflow. -/
def serSep (st : SerState) (notFirst : Bool) (m : Mapping) : M (Str × SerState) :=
  if m.generated.1 ≠ st.gen.1 then
    if m.generated.1 < st.gen.1 then .error .overflow
    else .ok (List.replicate (m.generated.1 - st.gen.1) ';', { st with gen := (m.generated.1, 0) })
  else .ok (if notFirst then [','] else [], st)

/-- Fields of one mapping, `source_map_generator.rs:138-167`. -/
def serFields (sources names : List (Int × Nat)) (st : SerState) (m : Mapping) :
    M (Str × SerState) :=
  let f1 := vlqEncode ((m.generated.2 : Int) - st.gen.2)
  let st := { st with gen := (st.gen.1, m.generated.2) }
  match m.source with
  | none => .ok (f1, st)
  | some s =>
    match sources.lookup s with
    | none => .error .unwrap
    | some si =>
      match m.original with
      | none => .error .unwrap
      | some (ol, oc) =>
        let f2 := vlqEncode ((si : Int) - st.source)
        let f3 := vlqEncode ((ol : Int) - 1 - st.orig.1)
        let f4 := vlqEncode ((oc : Int) - st.orig.2)
        let st := { st with source := si, orig := (toUsize ((ol : Int) - 1), oc) }
        match m.name with
        | none => .ok (f1 ++ f2 ++ f3 ++ f4, st)
        | some n =>
          match names.lookup n with
          | none => .error .unwrap
          | some ni =>
            .ok (f1 ++ f2 ++ f3 ++ f4 ++ vlqEncode ((ni : Int) - st.name), { st with name := ni })

/-- Loop of `serialize_mappings`, `source_map_generator.rs:119-168`. -/
def serLoop (sources names : List (Int × Nat)) : Bool → SerState → List Mapping → M Str
  | _, _, [] => .ok []
  | notFirst, st, m :: ms =>
    match serSep st notFirst m with
    | .error e => .error e
    | .ok (sep, st1) =>
      match serFields sources names st1 m with
      | .error e => .error e
      | .ok (fs, st2) =>
        match serLoop sources names true st2 ms with
        | .error e => .error e
        | .ok rest => .ok (sep ++ fs ++ rest)

/-- `serialize_mappings`, `source_map_generator.rs:110-170`; also sorts in place. -/
def Generator.serializeMappings (g : Generator) : M (Str × Generator) :=
  let g := { g with mappings := g.mappings.sort }
  match serLoop g.sources g.names false {} g.mappings.list with
  | .ok s => .ok (s, g)
  | .error e => .error e

/-- `to_source_map`, `source_map_generator.rs:69-92`. -/
def Generator.toSourceMap (g : Generator) : M (SourceMap × Generator) :=
  match g.serializeMappings with
  | .error e => .error e
  | .ok (mappings, g) =>
    .ok ({ version := 3
           sources := g.sources.map Prod.fst
           names := g.names.map Prod.fst
           mappings
           file := g.file
           sourceRoot := g.sourceRoot
           sourcesContent := g.sources.filterMap fun p => g.contents.lookup p.1 }, g)

/-- Loop of std's `binary_search_by`, called in `source_map_generator.rs:183-187`:
`while size > 1 { half = size/2; mid = base+half; if f(mid) != Greater { base = mid }; size -= half }`. -/
def bsearchLoop (f : Nat → Ordering) : Nat → Nat → Nat → Nat
  | 0, base, _ => base
  | fuel + 1, base, size =>
    if size ≤ 1 then base
    else
      let half := size / 2
      let mid := base + half
      let base := if f mid = .gt then base else mid
      bsearchLoop f fuel base (size - half)

/-- std's `binary_search_by` (as of the toolchain of the repository): `Ok i` is `(true, i)`,
`Err i` is `(false, i)`. Called in `source_map_generator.rs:183-187`. -/
def binarySearch {α : Type _} (l : List α) (f : α → Ordering) : Bool × Nat :=
  let g : Nat → Ordering := fun i => match l[i]? with | some a => f a | none => .gt
  if l.length = 0 then (false, 0)
  else
    let base := bsearchLoop g l.length 0 l.length
    match g base with
    | .eq => (true, base)
    | .lt => (false, base + 1)
    | .gt => (false, base)

/-- `empty_mapping` of `source_map_generator.rs:176-181`. -/
def emptyMapping : Mapping := { generated := (0, 0), source := none, name := none, original := none }

/-- `original_position_for` after the sort, `source_map_generator.rs:176-200`. -/
def originalPositionIn (l : List Mapping) (line col : Nat) : Mapping :=
  let found := match binarySearch l (fun m => cmpPair m.generated (line, col)) with
    | (true, i) => l[i]?
    | (false, i) => if i = 0 then none else l[i - 1]?
  match found with
  | none => emptyMapping
  | some m => if m.generated.1 = line then m else emptyMapping

/-- `original_position_for`, `source_map_generator.rs:173-201`. -/
def Generator.originalPositionFor (g : Generator) (line col : Nat) : Mapping × Generator :=
  let g := { g with mappings := g.mappings.sort }
  (originalPositionIn g.mappings.list line col, g)

/-- One iteration of the loop in `apply_source_map_generator`, `source_map_generator.rs:221-233`.
The inner generator is threaded because the lookup sorts it. -/
def applyOne (file : Option Int) (inner : Generator) (m : Mapping) : Mapping × Generator :=
  match m.original with
  | none => (m, inner)
  | some (line, col) =>
    if m.source = file then
      let (o, inner) := inner.originalPositionFor line col
      if o.source.isSome then
        ({ m with source := o.source
                  name := if o.name.isSome then o.name else m.name
                  original := o.original }, inner)
      else (m, inner)
    else (m, inner)

/-- Loop of `apply_source_map_generator`, `source_map_generator.rs:221-236`. -/
def applyLoop (file : Option Int) : Generator → List Mapping → List Mapping × Generator
  | inner, [] => ([], inner)
  | inner, m :: ms =>
    let (m', inner) := applyOne file inner m
    let (ms', inner) := applyLoop file inner ms
    (m' :: ms', inner)

/-- `apply_source_map_generator`, `source_map_generator.rs:203-251`. Returns the updated outer and
inner generators. -/
def Generator.applySourceMap (g inner : Generator) (sourceFile : Option Int) :
    M (Generator × Generator) :=
  match sourceFile.or inner.file with
  | none => .error .message
  | some file =>
    let ml := g.mappings.setUnsorted
    let (list, inner) := applyLoop (some file) inner ml.list
    let newSources := list.filterMap (·.source)
    let newNames := list.filterMap (·.name)
    let g := { g with mappings := { ml with list }
                      sources := if list.isEmpty then g.sources else []
                      names := [] }
    let g := newSources.foldl Generator.addSource { g with sources := g.sources }
    let g := newNames.foldl Generator.addName g
    let g := inner.contents.foldl (fun g p => g.setSourceContent p.1 (some p.2)) g
    .ok (g, inner)

/-! ## The external crate `source_map_mappings` (`parse_mappings`) -/

/-- `source_map_mappings::Mapping`: 0-based generated line, generated column, and optionally
(source index, 0-based original line, original column, name index). -/
structure Parsed where
  genLine : Nat
  genCol : Nat
  original : Option (Nat × Nat × Nat × Option Nat)
  deriving DecidableEq, Repr

/-- Running state of `parse_mappings` (all `u32`). -/
structure ParseState where
  genLine : Nat := 0
  genCol : Nat := 0
  source : Nat := 0
  origLine : Nat := 0
  origCol : Nat := 0
  name : Nat := 0
  deriving DecidableEq, Repr

/-- `read_relative_vlq` of the crate: adds a decoded delta, error on negative or > `u32::MAX`. -/
def readRel (prev : Nat) (s : Str) : Option (Nat × Str) :=
  match vlqDecode s with
  | none => none
  | some (d, rest) =>
    let v := (prev : Int) + d
    if v < 0 ∨ v > 4294967295 then none else some (v.toNat, rest)

/-- `true` at the end of the input or before `;`/`,` (crate: `is_mapping_separator`). -/
def atSep : Str → Bool
  | [] => true
  | c :: _ => c == ';' || c == ','

/-- One mapping of `parse_mappings` (crate). -/
def parseOne (st : ParseState) (s : Str) : Option (Parsed × ParseState × Str) :=
  match readRel st.genCol s with
  | none => none
  | some (gc, s) =>
    let st := { st with genCol := gc }
    if atSep s then some (⟨st.genLine, gc, none⟩, st, s)
    else
      match readRel st.source s with
      | none => none
      | some (src, s) =>
        match readRel st.origLine s with
        | none => none
        | some (ol, s) =>
          match readRel st.origCol s with
          | none => none
          | some (oc, s) =>
            let st := { st with source := src, origLine := ol, origCol := oc }
            if atSep s then some (⟨st.genLine, gc, some (src, ol, oc, none)⟩, st, s)
            else
              match readRel st.name s with
              | none => none
              | some (nm, s) =>
                some (⟨st.genLine, gc, some (src, ol, oc, some nm)⟩, { st with name := nm }, s)

/-- Loop of `parse_mappings` (crate); the first argument bounds the number of steps and is at least
the length of the input. -/
def parseGo : Nat → ParseState → Str → Option (List Parsed)
  | _, _, [] => some []
  | 0, _, _ :: _ => none
  | fuel + 1, st, c :: cs =>
    if c = ';' then parseGo fuel { st with genLine := st.genLine + 1, genCol := 0 } cs
    else if c = ',' then parseGo fuel st cs
    else
      match parseOne st (c :: cs) with
      | none => none
      | some (p, st, rest) =>
        match parseGo fuel st rest with
        | none => none
        | some ps => some (p :: ps)

/-- Comparison of parsed original locations (crate: `comparators::ByGeneratedTail`). -/
def cmpParsedOrig (a b : Nat × Nat × Nat × Option Nat) : Ordering :=
  (compare a.1 b.1).then <| (compare a.2.1 b.2.1).then <| (compare a.2.2.1 b.2.2.1).then <|
  cmpOpt compare a.2.2.2 b.2.2.2

/-- Order of `by_generated_location` (crate): generated line, generated column, original location. -/
def Parsed.le (a b : Parsed) : Bool :=
  ((compare a.genLine b.genLine).then <| (compare a.genCol b.genCol).then <|
    cmpOpt cmpParsedOrig a.original b.original).isLE

/-- `parse_mappings(..)` followed by `by_generated_location()`
(called in `source_map_generator.rs:289-290`). The crate sorts each generated line separately;
lines are parsed in increasing order, so this is the sort of the whole list. -/
def parseMappings (s : Str) : Option (List Parsed) :=
  match parseGo s.length {} s with
  | none => none
  | some ps => some (sortBy Parsed.le ps)

/-- `names[idx]` / `sources[idx]` lookups of `source_map_generator.rs:292-315`. -/
def resolveParsed (sources names : List Int) (p : Parsed) : M Mapping :=
  match p.original with
  | none => .ok { generated := (p.genLine + 1, p.genCol), original := none, source := none,
                  name := none }
  | some (si, ol, oc, ni) =>
    match (match ni with
      | none => (.ok none : M (Option Int))
      | some i => match names[i]? with | some n => .ok (some n) | none => .error .index) with
    | .error e => .error e
    | .ok name =>
      match sources[si]? with
      | none => .error .index
      | some src =>
        .ok { generated := (p.genLine + 1, p.genCol), original := some (ol + 1, oc),
              source := some src, name }

/-- Loop of `source_map_generator.rs:291-316`. -/
def addParsed (sources names : List Int) : Generator → List Parsed → M Generator
  | g, [] => .ok g
  | g, p :: ps =>
    match resolveParsed sources names p with
    | .error e => .error e
    | .ok m => addParsed sources names (g.addMapping m) ps

/-- The `filter` with a `HashSet` of `source_map_generator.rs:265-287`: keeps the first occurrence
of each element, in order. -/
def dedup : List Int → List Int → List Int
  | _, [] => []
  | seen, a :: l => if a ∈ seen then dedup seen l else a :: dedup (a :: seen) l

/-- The side effects of the `filter`/`map` closures over `sources`,
`source_map_generator.rs:264-281`: contents are consumed one per source, also for repeated ones. -/
def registerSources (checkDup : Bool) : Generator → List Int → List Int → Generator
  | g, [], _ => g
  | g, s :: ss, cs =>
    let g := if checkDup then g.addSource s else g
    let g := g.setSourceContent s cs.head?
    registerSources checkDup g ss cs.tail

/-- `from_source_map`, `source_map_generator.rs:253-318`. -/
def Generator.fromSourceMap (sources contents : List Int) (mappings : Str) (names : List Int)
    (file : Option Int) (sourceRoot : Option Str) (checkDup : Bool) : M Generator :=
  let g := registerSources checkDup (Generator.new file sourceRoot true) sources contents
  let sources := if checkDup then dedup [] sources else sources
  let names := if checkDup then dedup [] names else names
  match parseMappings mappings with
  | none => .error .vlq
  | some ps => addParsed sources names g ps

end WS
