# Formal model of rust-webpack-sources

Source under study: `/repo` (jevancc/rust-webpack-sources), read as text, never built or run.
Model and proofs: Lean 4 (4.33.0), `lean/Verif`.

## Layout

- `Verif/Model/*`  – the code, function by function. Each definition cites file and lines.
- `Verif/Spec/*`   – small specifications that do not mention the model
  (text operations, Source Map v3 decoding and lookup, splice semantics).
- `Verif/Proofs/*` – helper lemmas.
- `Verif/Props/*`  – the property theorems (`C01_…`), each followed by an `example` that shows
  its hypotheses are met by a non-trivial case. Counterexamples are named `Cxx_not_general` or after the case.
- `Verif/Tests.lean`, `Verif/TestsMore.lean` – fixtures of the repository replayed on the model: every case of
  `tests/source_map.rs` and of `test-js`, except the timing test of `mapGeneratedCode.js` and the module-loading test
  `package-entry.js`. These are tests, not proofs.

## Modelling decisions

- Text is `List Char`. Rust `str` lengths are UTF-8 byte sums (`blen`). Rust code that cuts by
  bytes at a newline cuts at a character boundary; the byte level is modelled separately for C34.
- A panic (`unwrap` on `None`, `unreachable!`, index out of range, `RefCell` double borrow) is an
  explicit error value. In wasm it is a trap.
- `usize` is `Nat`. Where the code relies on wrap-around (negative source deltas in the list map
  reader; `line - 1`), the release build on wasm32 is modelled: arithmetic modulo 2^32.
  Elsewhere numbers do not wrap in the model. `Model/Wasm32.lean` writes the reads once more with
  every `usize`/`i32` operation that map contents or positions can drive out of range wrapping as in
  the release build on wasm32; C71 proves both the same for maps with generated columns and original
  lines below 2^31, replacements between -2^30 and 2^31-2, texts up to 2^30 characters and nesting
  up to 2^29, and gives programs on which they differ outside. So the other theorems speak of
  the compiled library within these ranges. Counters that only grow with the text (line and
  column counters, byte sums of emitted maps) are taken as unbounded in both.
- `i32` ids, `i64` deltas are `Int`.
- JavaScript strings are taken for sequences of Unicode scalar values (lone surrogates do not reach
  wasm unchanged); `length` counts UTF-16 units (`utf16Len`). C77 has the strings themselves: texts read
  from wasm lose one leading byte order mark, which the other theorems leave out, and C77 says that
  nothing else is different.
- JavaScript numbers given as positions are rationals; `Math.floor((x % 1) * 16)` is `jsOrder`.
- A JavaScript program is a list of statements (`JOp`) over a state (`World`): string table, wasm
  heap, JavaScript objects with their own fields, emitted maps. It stops at the first exception.
- A program changes an emitted map only by assigning to its properties. Changing in place an array that
  a property handed out (`map.sources.push(…)`) is modelled for C83 only (`JsEdit`); one array kept by two maps is not.
- `HashMap` is an association list without repeated keys. Its iteration order is arbitrary in Rust:
  C28 shows that the order does not matter.
- `LinkedHashMap` is an association list in insertion order.
- Objects behind `Rc<RefCell<_>>` live in a heap (list of objects addressed by number), so sharing,
  later mutation, cycles and the double-borrow panic are visible.

## Trusted base

1. The Lean 4.33.0 kernel.
2. Axioms. No axiom is declared here; `sorry`, `native_decide` and `bv_decide` are not used. Of the
   theorems named in `MANIFEST.json` (`#print axioms`):
   - `propext` only: C09_text, C18_total, C23_not_general, C24_clear, C30_prepend_partial, C30_add,
     C30_add_nodes, C30_not_general, C31_not_general, C35_not_general, C43_single_line, C80_takes;
   - `propext`, `Quot.sound`: C15_no_text_lost, C20_identity_partial, C20_merge, C24_stable,
     C24_injective, C24_at, C24_resolve, C25_source, C25_map_partial, C25_size_partial,
     C25_reads_partial, C27_pos, C29_pieces_unique, C31_toString_partial, C31_exact, C34_node_reader, C34_cut,
     C37_kept, C37_exact, C39_split, C40_lines_partial, C42_lines, C42_ends_partial,
     C42_ends_nonempty, C43_indent_partial, C43_map_partial, C44_kept_partial, C44_exact_partial,
     C44_near, C44_files, C47_indices, C52_tree, wasmPrefixMap_near, wasmIdenticalMap_near, C72_function,
     C72_test_partial, C72_identical, C80_refuses;
   - `propext`, `Classical.choice`, `Quot.sound`: all others.
3. That the model says what the code does. Every definition of `Verif/Model` cites the lines it
   stands for; the fixtures of the repository's own tests are replayed in `Verif/Tests.lean` and `Verif/TestsMore.lean`.
4. The external code below.

## Which code is modelled

| code | model |
|------|-------|
| `src/utils.rs` | `Utils`, `Text` |
| `src/types/string_slice.rs`, `string_ptr.rs` | `Slice` (bytes), `Text` (characters) |
| `src/types/source_map.rs` | `Mapping` |
| `src/source_map/types/*`, `source_map_generator.rs` | `Mapping`, `Generator` |
| `src/source_map/source_node.rs`, `from_string_with_source_map.rs` | `SmNode`; bytes: `Slice` |
| `src/source_list_map/*` | `Slm`; bytes: `Slice` |
| `src/raw_source.rs`, `original_source.rs`, `line_to_line_mapped_source.rs`, `source_map_source.rs`, `prefix_source.rs`, `replace_source.rs` | `Sources`, `Heap` |
| `src/concat_source.rs`, `src/source.rs` | `Heap`, `Tree` |
| `src/wasm_api/*.rs` (constructors, `add`, `replace`, `insert`, `source`, `size`, `node`, `list_map`) | `Heap`, `History` |
| `src/wasm_api/wasm_containers.rs` `JsStringWithSourceMap` | `JsWorld` |
| `src/wasm_api/source_list_map/mapping_functions.rs` | `MapFns` |
| `wasm-api/StringCache.js`, `CachedSource.js` | `Js`; in programs: `JsCache` |
| `wasm-api/RawSource.js`, `OriginalSource.js`, `LineToLineMappedSource.js`, `SourceMapSource.js`, `PrefixSource.js`, `ReplaceSource.js`, `ConcatSource.js`, `SourceAndMapMixin.js`, `utils/createStringWithSourceMap.js` | `JsWorld` |
| `wasm-api/wasm-source-list-map/*.js`, `src/wasm_api/source_list_map/*.rs` | `JsList` |
| `wasm-api/wasm-source-map/SourceNode.js`, `src/wasm_api/source_map/source_node.rs`, `node()` of all classes | `JsNode` |
| programs that use all these classes together; `node` and `listMap` of `CachedSource` | `JsAll` |
| `clear()` of `wasm-api/index.js:23-28`, `wasm-api/WasmObjectPool.js` | `JsClear` |
| `free()` of sources, `wasm-api/build/webpack_sources.js:164-168` and the other classes | `JsFree` |
| arrays that `utils/createStringWithSourceMap.js:53-60,70-82,108-115` hands out, changed in place | `JsEdit` |
| `passStringToWasm`, `getStringFromWasm` of `wasm-api/build/webpack_sources.js:4-32` | `Strings` |

Not modelled: the rest of the generated bindings `wasm-api/build/*` (except that a moved object throws), memory
management (`free` of nodes, list maps and emitted pairs called by the program, `Rc` counts, reuse of freed addresses;
what `clear()` and `free()` of sources free is modelled, and any use of freed memory is the error `freed`), `std::fmt`, `register()` of `wasm-api/index.js`, build scripts, tests.

## External code taken on trust

- `vlq` 0.5.1: base64 VLQ as in the Source Map v3 format (numbers below 2^60).
- `source_map_mappings` `parse_mappings`: standard parse, each line's mappings sorted by generated
  column, then original location; error on negative or > u32 values; a segment of more than five numbers is not
  an error, the sixth begins the next mapping (C81).
- `TextEncoder`, `TextDecoder` of node: the Encoding Standard (unpaired surrogates are replaced, one leading byte
  order mark is dropped).
- `regex` for `[^\n\r;{}]*[\n\r;{}]*`: leftmost greedy match.
- `bytecount`, `linked-hash-map`, std `sort`/`sort_by` (stable sort by the given order),
  std `binary_search_by` (std's algorithm; only its documented contract is used in theorems).

## Properties: what is modelled and how it is proved

| id | model | proof idea |
|----|-------|------------|
| C01 | heap, `add`, `source` | case analysis and induction over children |
| C02 | heap, `size`, `source` | induction over the recursion depth |
| C03 | `make_prefixed_string` | induction over the text, line-join specification |
| C04 | `replace_string`, `split_str`, sort | induction over the sorted edit list; splice specification |
| C05 | sort key, `replace_string` | sorted lists with the same members are equal |
| C06 | heap and histories | heap equivalence preserved by reads, simulation |
| C07 | `node` of every source | induction; false in corner cases of PrefixSource: counterexample + partial |
| C08 | `list_map` of every source | a list map takes of overlapping edits only what lies behind the earlier ones (`Spec.clipped`, `replaceListMap_clipped`), which is what `source()` does unless one lies within another (`applyRight_clipped`); false for nested edits and mid-line prefixes: counterexamples + partial |
| C09 | `walk`, `process_chunk`, generator, serialization | invariant over the chunk list, decode specification; `C09_exact`: right exactly when no empty string outlasts the text at its place (`Overruled`) |
| C10 | `serialize_mappings` | induction with delta state, VLQ round trip |
| C11 | `from_source_map` | decode specification agrees with parser |
| C12 | `get_mappings` of the three nodes | invariant relating running state and decoder state; the list maps of objects meet the conditions (`C12Objects`) |
| C13 | list map `from_string_with_source_map` | induction over lines |
| C14 | same | induction over lines, composed with C12 |
| C15 | node `from_string_with_source_map` | induction over mappings, cursor invariant |
| C16 | same | cursor invariant with annotated characters |
| C17 | composition | C16 + C09 + C10; `C17Exact`: the parser's order decides which of several segments counts |
| C18 | `apply_source_map_generator` | map over the list, C19 |
| C19 | `original_position_for`, binary search | binary search contract by induction |
| C20 | `map_generated_code` | text and attribution invariants |
| C21 | `vlq` | strong induction on the number |
| C22 | generator and list-map tables | table invariants; column level (`Proofs/NodeLines`) and line level (`C22Lines`) for all objects of all programs; what goes wrong for list maps in general cannot occur there |
| C23 | `to_source_map`, `get_arrays` | false when some content is missing: counterexample + partial |
| C24 | `StringCache` | invariant over histories |
| C25 | `CachedSource` | false for options and non-ASCII sizes: counterexamples + partial |
| C26 | `OriginalSource::node` | false after CR and for multi-byte text: counterexample + partial; exact for every text (`C26_exact`: columns count the bytes of the segments that are not just white space) |
| C27 | `LineToLineMappedSource`, `OriginalSource::list_map` | induction over lines |
| C28 | content tables | permutation invariance |
| C29 | `Split` iterator | induction |
| C30 | `prepend` | false (condition inverted): counterexample + partial |
| C31 | `to_string` | false: counterexample + partial |
| C32 | `from_source_map` | false: counterexample + partial (no repetition) |
| C33 | heap, all reads | false (string-wrapped, cyclic): counterexamples + exact condition, for well-formed maps in terms of `points`, for any maps through C79 and C81 (`C33Any`) |
| C34 | byte-level slices | bounds invariant |
| C35 | `MappingList` | false after inner-map application: counterexample; exactly which histories of a generator made anew write all in order (`C35_exact`): partial |
| C36–C38 | annotated characters of `node` | structural induction |
| C39 | `split_sourcenode` | structural induction |
| C40 | `SourceMapSource` state | false for generator-backed: counterexample + partial |
| C41 | `list_map` of concat | line attribution is compositional |
| C42 | list-map node counters | false after empty additions: counterexample + partial |
| C43 | `PrefixMappingFunction` | induction over lines; false without newline: counterexample, exact condition |
| C44 | `PrefixSource::list_map` | marked characters through `map_generated_code`; false after merges: counterexample + partial |
| C45 | `ReplaceSource::list_map` | same, splice of marked characters, overlapping requests clipped; false for texts with newlines |
| C46 | JavaScript programs, `source()` | invariant linking each object to the wasm heap; text described by the statements alone |
| C47 | programs, emitted maps | every index anywhere in the heap is an index of the right role (`Proofs/Within`) |
| C48 | getters/setters of emitted maps | cached values persist; false once moved: counterexample |
| C49 | `updateHash` | stream described by the statements; false for late additions: counterexamples |
| C50 | `jsOrder`, `insert` | sort keys; false below 1/16 and for negative fractions |
| C51 | `size()` | units per class; false for mixed units |
| C52 | contents of emitted maps | coverage invariant over generators, nodes and list maps (`Proofs/Paired`); false with ReplaceSource |
| C53 | any nesting, column level | claims of the innermost sources carried through C36–C38 by induction over the object graph; false behind deleted pieces: counterexample + `Overruled` |
| C54 | emitted pairs, getters and setters | cached or still computable values as an invariant along the program (`Lasting`) |
| C55 | `SourceMapSource` of an emitted map | unmodified maps read as their wasm object says; false for names assigned to a map without columns: counterexample + partial |
| C56 | list-map classes as programs | marks with names described by the statements, carried along the program (`Fits`); false for strings put in front and for several lines in a single-line node: counterexample + partial |
| C57 | same | kinds of objects computed from the statements; exact condition |
| C58 | `CachedSource`s in programs | every statement traced by statements of the other classes; kept texts as an invariant; false after edits and where `sourceAndMap` differs from `source`: counterexamples + partial |
| C59 | source nodes as programs | characters with places described by the statements, carried along the program (`NFits`); strings of the table by name; false for line 0 and behind `ReplaceSource`s: counterexample + partial |
| C60 | programs of C59 and C53 | indices of emitted maps are the ones the string table gives for their strings (`Canon`), so equal strings have equal indices; order and validity from the generator (columns) and from the points of pieces (lines, through the log of wasm calls, `World.run_log`); false for `null`: counterexample + partial |
| C61 | programs with `clear()` | a world with emitted pairs in front of it runs like one without (`JOp.behind_run`), so new objects behave as in a new process; old objects keep their fields; freed memory: false for equal `RawSource`s, for nodes the names of files: counterexamples + partial |
| C62 | line maps of programs | every object knows the statement that made it (`World.Labels`) and unfolds to a list map that stands for what the statements say (`JLines.of_unfolds`); exact without prefixes and replacements (`JLines.unique`): partial |
| C63 | column maps of programs | the node of a `SourceMapSource` with an inner map says the composition of the two maps (`Sms.node_says_inner`); every object unfolds to a node that says what the statements say (`JPlaces.of_unfolds`); exact for objects without empty strings (`JPlaces.unique`): partial |
| C64 | edited sources, ascending places | what a tree displays is computed exactly for attributed empty strings too (`Spec.displayed`, `C09_shown`); a ReplaceSource brings in no new places and keeps their order (`leafLoop_places`, `tame_tree`); if places do not go back no left-over mapping overrules another place (`C64_tree`); false when places go back: counterexample |
| C65 | edited code in programs | files are numbered in the order the program mentions them (`World.run_numbered`); every object unfolds to a node that carries what the statements say, made of the places of its innermost objects (`carries_unfolds`); a node in which every string comes from a place not before those of the empty strings in front of it keeps places (`displayed_sane`); false when a deleted statement stands in front of code from a file mentioned earlier: counterexample. Names: what a position shows has a name if the character has one, and no name but that of a place of the unedited code (`KeepsNear`), so names are kept where one place has one name (`C65_names_partial`, `C66_edited_names_partial`, `C74_given_edited_names_partial`); otherwise false (`C65_names_not_general`) |
| C66 | emitted maps given back | every emitted map keeps a well-made generator or data (`Emitted.Sound`), so what is handed over, moved or copied, holds what the properties read (`StrTable.Holds.of_denotes`); the objects then carry what the statements with the maps spelt out say (`World.run_given`), and files are numbered in the order those mention them (`World.run_numbered_given`); C62, C63, C65 follow for such programs, and a pair made a source again shows what it showed (`C66_again_partial`). Left out: an emitted map together with an inner map (the generator is kept and composed with the inner map at the first use), maps in which two segments share a position, files without name |
| C67 | files in line maps of programs | nodes are merged only if their files are equal (`merge_flat`), so rewriting carries files along whatever it puts in (`mapGenerated_flat`, `C44_files`, `C45_files`); `Spec.JLines` says it without condition, `Spec.JFiles` is what remains of it without lines. Overlapping replacements are clipped (`Spec.clipped`). Left out: unreadable maps |
| C68 | how far line maps of programs are off | a node is merged into the one before only if it begins on the line it says and holds at most one newline, so rewriting moves a character by at most one line (`merge_near`, `mapGenerated_near`, `C44_near`, `C45_near`); `Spec.JLines` says it without condition, the errors of nested rewritings add up (`JLines.stated`); attained in `c68Program`. Overlapping replacements are clipped. Left out: unreadable maps |
| C69 | list-map programs with list maps of objects and rewriting | C56 and C68 in one: the list-map objects are followed statement by statement (`Spec.Recount`), the objects they were taken from by `JStated`; the state keeps C56's `Fits` for the actual lines and `Nearly` for the said ones. `wasmSk_carries`: the prefix function carries attributions along; `Tree.listMap_columns`: `columns` does not matter. Left out: strings put in front (C30), the function for tests, unreadable and emitted maps |
| C70 | line maps and the history of the process | list maps of trees that are equal but for indices are equal but for indices, if indices correspond one to one (`Tree.Like.listMap`, `Proofs/LineRename.lean`): file names do, since the string table gives equal strings one index (`Canon`), contents do, since each belongs to one place of one object (`World.Ledger`, `Proofs/JsLedger.lean`); graphs of corresponding objects unfold to such trees (`Tree.Like.of_seen`). Without PrefixSource and ReplaceSource contents need not correspond one to one (`NoRewriting`). `C70_after`: a program behind another. Left out: maps emitted before and given to corresponding SourceMapSources; columns (false, `C70_not_columns`) |
| C71 | 32-bit numbers | `Model/Wasm32.lean`: the reads of trees with wrapping arithmetic; equal to the reads of the model by induction over trees (`C71_text`, `C71_node`, `C71_lines`, `C71_emit`). Nodes: columns of generators stay below 2^31 (`ColsFit`). List maps: `LNode.Low B` bounds the lines of nodes, each rewriting adds at most one to `B` (`Proofs/Wasm32List.lean`); a map that is read starts with `B` = greatest original line + number of lines (`Proofs/Wasm32Read.lean`). Outside the ranges: four counterexamples |
| C72 | `mapGeneratedCode("test")`, `("identical")` | replacing the pairs of a character and a newline joins lines (`replacePair_lines`), whole lines are rewritten one by one (`wasmTest_append`); false for nodes that end inside a line (`C72_not_general`) |
| C73 | maps in programs with `CachedSource`s | the statements but for reads are those with the objects meant (`COp.run_trace`, `cplain`), every kept map is a pair emitted at an earlier moment (`Rooted`), to which C62, C63 and C65 apply; objects not edited since are described alike (`Untouched`); emitted pairs given back: statements without `CachedSource`s that make the same objects (`Spec.CMadeFrom`, `CWorld.runFrom_made`), to which C66 and C75 apply; false otherwise (`C73_stale`, `C73_options`) |
| C74 | programs that use all the classes together | one invariant with those of C58, C59, C63 and C69 on the common state (`AInv`); every class leaves what the others rely on (`World.Calm`, `LKept`), an emitted pair lasts through statements of any class (`World.Lasts`); a map kept by a `CachedSource` satisfies what held when it was made (`Roots`, `ARooted`); for edited objects the string table numbers the strings in the order in which the statements of all classes mention them (`AWorld.run_numbered`); where emitted pairs of any class are given back, the same with the maps as they read when given (`Spec.GivenFrom`, `GInv`), the string table numbering what these maps mention (`GInv.more`) |
| C75 | column maps of programs, exactly | rendering a tree of nonempty pieces writes one segment for each change of origin, and the tables list first occurrences (`SmNode.render_exact`, against the encoder of `Spec/Canonical.lean`); strings stand for one index each (`CanonMarks`), so the same holds of strings; every map that says the same has at least as many segments and table rows (`C75_least`, `C75_encode`); programs over all classes and maps kept by `CachedSource` by the calls of C73 and C74 (`C75_all_partial`, `C75_cached_partial`); programs that give emitted maps by the invariants of C66 (`C75_given_partial`); false with empty strings (`C75_not_empty`): partial |
| C76 | contents of column maps of programs, exactly | tables of contents are first-wins in every function (`lookup` of `++`), so the table of the node an object makes looks up like the list of contents its parts give in order (`JGives.of_unfolds`); C52 says which of it is listed
| C77 | UTF-16 strings and UTF-8 bytes of the bindings; programs with texts read through the decoder | well-formed UTF-16 by induction; UTF-8 by the standard library's decoder; programs: both runs stay the same up to marks at the beginning of texts (`World.Seen`), statement by statement |
| C78 | an emitted pair given back to a `SourceMapSource`, repeated | the smallest map is well-formed (`wellMade_of_exact`), so C66 and C75 apply to the program continued by a round; induction over rounds (`Spec.Again`), with other statements between them; `sourcesContent` because the unmodified generator object is handed on with its contents by file (`Bearing`, C78Contents.lean): partial as C66 and C75 |
| C79 | `slmFromString` on maps that are not well-formed | the reader's state is the sums of the deltas, the index kept modulo 2^32 (`put`, `segsEffect_put`); then as C14. Which strings are read: decoding a number takes exactly one (`vlqDecode_iff`), so a segment is its first three numbers or refused (`lfSegment_any`), and `C79_reads` is an iff. The rendered half is false for line 0 (`C79_not_general`): partial |
| C80 | `addMappingV`, `validateMapping`, `toSourceMap` on new generators | validation is the predicate `Acceptable`; writing succeeds iff all are `Writable`, because tables list what mappings mention and sorted lines never decrease |
| C81 | `parseGo`/`parseOne`, `fromSourceMap` on any string | a run of the parser is a way to put commas in (`Spread`) together with a decoding (`parse_iff`, both directions); adding mappings fails only on an index (`addParsed_reads`) |
| C82 | `FWorld`, `FOp` (`free()` of sources) | false (`RawSource`s share a wasm object, hashes read `ReplaceSource`s): counterexamples. Each statement does what it does without `free()`, or throws (`JOp.run_rel`, with the allowed errors as a parameter); only `RawSource`s of one value share a wasm object (`World.Held`), so what was not freed can be reached |
| C83 | `EOp` (arrays of emitted maps changed in place) | false (only setters mark a map): counterexample. On a marked map a change and an assignment give the same state; changed arrays of an unmarked map commute with every statement that does not read them (`World.over`, `JOp.over_run`) |
| C84 | maps of edited code | no order of places or requests assumed; every string of an edited node stems from a place of the unedited code (`leafLoop_from`, `unedited_unfolds`), every mapping and table entry from a string (`SmNode.render_from`). Partial: supplied maps are well-formed (`Exact`) |
| C85 | positions of segments | columns: every mapping of a walk is made at the position of the walk (`Core.walk_at`). Lines: the points of pieces (`pieces_at`) with columns in bytes; false for texts that are not ASCII (counterexample) |
| C86 | wrappers that change nothing | `Grouped`: node trees that differ in groupings and in the division of text without place only; kept by splitting, prefixing and replacing, and invisible to the walk (`Grouped.walk/split/clone`); two prefixes in a row give the node of one (`clone_twice`). Full for texts and maps with columns; false for maps without columns (counterexample) |
| C87 | reading and rendering line maps settles | list maps as read are the same as a list of lines, each with file, content and line (`KeptLines`, `lines_read`); what is written for a line is read as that line (`one_back`, `lines_back`), with files renamed to the written table (`renamed`). What is needed of the files is that those of the first rendering are distinct (`settles_distinct`, `C87_distinct_partial`), which holds if none is named -1. Missing: a file named -1 beside a missing one, and lines beyond 32 bits; there it is false (`C87_not_minus_one`, `C87_not_line`). With the 32-bit arithmetic of the wasm build (`Model/Wasm32.lean`) lines need no condition (`C87_wasm_partial`), and every map that can be read settles after two readings, with no condition on files either, save fewer than 2^32 - 1 of them (`C87_wasm_second`, from `lines_within`: a rendering names only files of its own table) |
| C88 | line pairs given back settle | a pair that is not read or assigned to otherwise keeps its map (`LinePair.lasting`); a SourceMapSource made of it hands out the rendering of the reading (`emit_lines`), which is the same map by C87 (`rounds_lines`). Missing: lines beyond 32 bits; for a first map that is an emitted pair it is a hypothesis that the files of the pair after the first reading are distinct |

## How to read seeded/LOG.jsonl

Each line is one edit of the model, made in a copy. Theorems and examples that no longer build are replaced by `sorry` and
the build is repeated; they are listed as `failed`. `claims_affected` are the claims that then depend on `sorry`.
So an affected claim is one whose proof went through something that broke. This does not show that the claim is false of the
edited model: that is argued in `breaks`, and a claim can also be affected though it remains true. What the log does
show is that none of the listed edits leaves the proof of a claim it breaks intact, unless the note says so.

## Findings: where the code does not do what it should

Each is proved as a counterexample where a theorem is named; the others were met while reading.

- C06/C40: a `SourceMapSource` with a generator-only map and an inner map answers line-level reads
  differently after other reads (`C06_not_general`, `C40_not_general`).
- C07, C08: the texts returned beside the maps differ from `source()` for some prefixed sources and for
  nested replacements (`C07_not_general`, `C08_not_general`).
- C09: attributed empty strings leave mappings that reach into the following text (JavaScript
  `source-map` skips empty chunks in `walk`; the port does not). `C09_exact` says when. Such strings
  are made by `ReplaceSource::node` when it splits at the border of two pieces.
- C53: text after a deleted piece of an original gets the origin of the deleted piece
  (`C53_not_general`: a string appended after a deleted last statement).
- C64: a source with a smaller file number after a deleted statement gets the place of the deleted
  statement (`C64_not_general`). The order of the files is the order in which the program mentions them, so the
  same sources joined in another order give correct places (`C65_partial`, `C65_not_general`).
- A character left behind a deleted one from the same place gets the deleted one's name, even if it has none itself:
  of the mappings at one position the last one in order wins, and named ones come last
  (`C65_names_not_general`).
- C55: names assigned to a map without columns are dropped when the map is given to a
  `SourceMapSource`, because only maps with columns have a `names` setter that marks them as modified
  (`C55_not_general`).
- C17: several segments at one position are not passed through.
- C20, C44, C45: `SingleLineNode` merging renumbers two lines that come from one source line.
- C22: a list map with both index -1 and a missing source emits `sources: [-1, -1]`.
- C23, C52: contents are emitted without gaps, so a source can get the content of the next one;
  reachable through `ReplaceSource` over `ConcatSource` (`C52_not_general`).
- C25: `CachedSource.map` ignores its options and stores the result under them, which
  `sourceAndMap` then returns; `size` depends on earlier reads for non-ASCII text.
- C26: wrong columns after a carriage return inside a line and for multi-byte text.
- C30: the branches of `prepend` for strings are swapped.
- C31: `toString` of list maps.
- C32: repeated names in `sources` of a given map are read wrongly; the column-level read traps.
- C33: cycles trap (double borrow), `PrefixSource`/`ReplaceSource` over a plain string trap on map
  reads (`unreachable!`).
- C35: a mapping added after an inner map was applied can come out of order.
- C38/C45: replacement text is attributed differently at line and column level.
- C42: the "ends with newline" flag of nodes of empty code.
- C43: the wasm prefix function puts an additional prefix line before code without newline
  (`lines_count - 2` wraps in release builds, panics in debug builds).
- C48: an emitted map given to a `SourceMapSource` cannot be read any more, unless it was read before.
  Assigning `sourcesContent = []` reads back `undefined`.
- C49: `ConcatSource` holds an added `ConcatSource` by reference in JavaScript but by value in wasm
  (`item.isConcatSource` is never defined), so the hash covers items that are not in the text, and may
  not end.
- C50: positions closer than 1/16 are not distinguished, negative fractions sort wrongly.
- C51: leaf classes count UTF-16 units, the others bytes.
- Columns: list maps count bytes, nodes count characters.
- Numbers out of range (C71): a replacement that ends at 2^31-1 removes nothing
  (`C71_not_replace`); a generated column of 2^31 and more is taken for a negative one
  (`C71_not_columns`); original line 2^32 is read as line 0 (`C71_not_lines`), and runs on from line
  2^32-1 in list maps (`C71_not_list`).
- `ReplaceSource.replacements()` calls a wasm function that does not exist; so do
  `SourceListMap.mapGeneratedCode` for replacements (`_sourcelistmap_map_generated_code_replace`) and
  `SingleLineNode.js` (`_new_ntring_null_null_number`). `SourceListMap`'s constructor assigns
  `_new_nodes(nodes)` without `.ptr`; `clone()` of list-map nodes assigns raw results.
  So `new SourceListMap([...])` and every `clone()` give objects that can not be used (C57).
- `mapGeneratedCode` of the JavaScript list map consumes `this`; list-map nodes made from empty code have
  no wasm object and throw when used (C57).
- C58: `sourceAndMap` of a `CachedSource` keeps the text that came with the map, which for `PrefixSource`s can
  differ from `source()` (C07); later `source()` returns that one. A kept map that was given to a `SourceMapSource`
  is handed out again and throws when read.
- C59: a `SourceNode` at line 0 gives a map with the negative original line -1. A node whose text a
  `ReplaceSource` removed still claims the text behind it when put between nodes.
- C60: `null` can be listed twice in `sources`: once for no file, once for `null` in the string table
  (`C60_null_twice`).
- `OriginalSource`'s `ptrCache` never hits: its key is a fresh index each time.
- C61: after `clear()` indices held by older objects dangle (`C24_clear`): a `SourceNode` made before is rendered
  with other strings as names of files (`C61_nodes_not_general`). Of two `RawSource`s with the same value the
  second is not in the pool and keeps its pointer to freed memory (`C61_memory_not_general`).
- C83: a map whose arrays were changed in place reads as changed, but a `SourceMapSource` made from it uses the
  unchanged map (`C83_not_general`).
- C85: maps without columns count columns in bytes, so in a text that is not ASCII a segment may lie behind the end
  of its line (`C85_lines_not_general`).
- C87: where `usize` has 64 bits (a native build), line numbers are kept in 32 bits when read but go on beyond them when
  blank lines follow: the line after line 2^32 - 1 is written as 2^32 and read as line 0 (`C87_not_line`). In the wasm build
  both wrap, and every map settles (`C87_wasm_partial`).
- C87: a file named -1 and a missing file are two entries of the table, both written as -1; read again they are one
  (`C87_not_minus_one`).
- C86: an empty string as last item behind a newline is not nothing: in a `PrefixSource`, `sourceAndMap().source` gets
  the prefix once more than with an empty `RawSource` in its place (last example of `Props/C86.lean`).
- C86: with `columns: false`, a `PrefixSource` with an empty prefix changes the map of what it wraps: two list-map nodes
  that were kept apart are merged and a line put in by an edit counts as a line of the file (`C86_lines_not_general`).
- C82: `free()` takes nothing out of the cache of `RawSource`, so other `RawSource`s of the same value point to freed
  memory; and `updateHash` of an object throws if a `ReplaceSource` in it was freed, though `source()` returns
  (`C82_not_general`).
- An empty `originalSource` counts as absent (`wasm-api/SourceMapSource.js:47`).
- C70: with columns, a map depends on what the process did before: an object that is not used any more
  can change the mappings of another one (`C70_not_columns`, `AAAA,CCAA` against `AAAA,ECAA`), because
  mappings of one place, which empty pieces left by replacements make, are sorted by the indices of their files
  in the string table, and `original_position_for` takes one of them for the text put in
  (`src/replace_source.rs:312-320`, `src/source_map/source_map_generator.rs:173-201`). With lines,
  using an object twice and using two equal objects can differ, because contents are compared by index
  (`C70_not_general`).
- C74: so does a `SourceNode` that is not used any more: one that mentions a file before others do can make the
  map of an edited object say that code comes from the place of deleted code (`C74_unused_node`).
- C75: an empty string put between two texts of one origin adds two segments that say nothing new (`C75_not_empty`,
  `AAAA,C,AAAA` for `AAAA`).
- C76: `set_source_content` keeps the first content of a file (`src/source_map/source_map_generator.rs:61-65`), so a
  content in the outer map of a `SourceMapSource` goes before the `originalSource` that was given with it. Files
  without content are left out of `sourcesContent`, so the contents behind them are read as those of other
  files (`C76_not_parallel`).
- C77: `getStringFromWasm` decodes with `new TextDecoder("utf-8")`, without `ignoreBOM`, so every text read from wasm
  loses one leading U+FEFF: `new ConcatSource("\uFEFFa").source()` is `"a"`, while `new RawSource("\uFEFFa").source()`
  keeps it (`C77_not_general`). Maps still count it, so the columns of the first line are one too large
  (`C77_columns_off`). Unpaired surrogates become U+FFFD (`wasm-api/build/webpack_sources.js:4-32`).
