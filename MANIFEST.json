{"claims": [
{"property": "C01", "status": "proved", "theorems": ["WS.C01_concat_source", "WS.C01_add_frame", "WS.C01_add_appends"], "note": ""},
{"property": "C02", "status": "proved", "theorems": ["WS.C02_size_is_byte_length"], "note": ""},
{"property": "C03", "status": "proved", "theorems": ["WS.C03_prefix_source", "WS.C03_prefix_source_chars"], "note": ""},
{"property": "C04", "status": "proved", "theorems": ["WS.C04_disjoint_splice", "WS.C04_arrangement_exists"], "note": ""},
{"property": "C05", "status": "proved", "theorems": ["WS.C05_order_irrelevant", "WS.C05_inserts_in_call_order"], "note": ""},
{"property": "C06", "status": "partial", "theorems": ["WS.C06_source_size", "WS.C06_writes_run", "WS.C06_sourceAndMap", "WS.C06_columns", "WS.C06_lines_partial", "WS.C06_not_general"], "note": "Full for source(), size() and for the text of sourceAndMap() with columns (any maps, any reads). With columns off: text and map are the same unless a SourceMapSource has its map as a generator only and an inner map besides; in that case reads do change the text, counterexample proved (C06_not_general)."},
{"property": "C07", "status": "partial", "theorems": ["WS.C07_text_partial", "WS.C07_no_prefix", "WS.C07_not_general"], "note": "Proved for every history whose PrefixSources wrap non-empty texts not ending in an empty chunk after a newline (unconditional without PrefixSource); false in general, see C07_not_general."},
{"property": "C08", "status": "partial", "theorems": ["WS.C08_linewise_partial", "WS.C08_text_partial", "WS.C08_not_general"], "note": "For every history no edit of which lies within another one (they may overlap) and whose PrefixSources wrap sources that hand out their text line by line (strings, plain sources, SourceMapSources not ending with a newline, prefixed ones, line-terminated concatenations of these), the text of sourceAndMap({columns:false}) is what source() returns; in particular for every history without PrefixSource and with such edits. C08_text_partial gives the condition on the pieces of the wrapped list map instead. Missing in the full statement because false of the code (C08_not_general): prefixes in mid-line, behind insertions at line starts, behind trailing newlines of SourceMapSources, over empty concatenations; nested replacements."},
{"property": "C09", "status": "partial", "theorems": ["WS.C09_attribution_partial", "WS.C09_text", "WS.C09_not_general", "WS.C09_exact", "WS.C09_shown", "WS.overruled_of_full", "WS.overruled_of_ascending"], "note": "false for attributed empty strings, counterexample proved; C09_exact gives the exact condition; C09_shown says what is looked up in every case"},
{"property": "C10", "status": "proved", "theorems": ["WS.C10_roundtrip", "WS.C10_in_order"], "note": ""},
{"property": "C11", "status": "proved", "theorems": ["WS.C11_roundtrip"], "note": ""},
{"property": "C12", "status": "partial", "theorems": ["WS.C12_segments_partial", "WS.C12_lookup_partial", "WS.C12_objects", "WS.C12_not_general"], "note": "In full for the list maps of all objects of all programs (C12_objects). By themselves: for lists of code, source and single-line nodes with right counters and mapped code from line 1 on; false when bare strings or nested list maps are in the list (they are dropped from the map), counterexample proved"},
{"property": "C13", "status": "proved", "theorems": ["WS.C13_text"], "note": ""},
{"property": "C14", "status": "proved", "theorems": ["WS.C14_origins"], "note": "at most 2^32 sources and original lines below 2^32 (usize is 32 bits in the wasm build)"},
{"property": "C15", "status": "proved", "theorems": ["WS.C15_no_text_lost"], "note": ""},
{"property": "C16", "status": "proved", "theorems": ["WS.C16_attribution"], "note": ""},
{"property": "C17", "status": "partial", "theorems": ["WS.C17_passthrough_partial", "WS.C17_not_general", "WS.C17_exact", "WS.C17_any"], "note": "False for several segments at one position and for repeated array entries, counterexamples proved (C17_not_general, C32). C17_any says for every map, well-formed or not, which segment counts and into which arrays its indices go, whenever the read answers (C33_columns: exactly when); C17_exact the same for well-formed maps in simpler terms."},
{"property": "C18", "status": "proved", "theorems": ["WS.C18_composes", "WS.C18_lookup", "WS.C18_total"], "note": ""},
{"property": "C19", "status": "proved", "theorems": ["WS.C19_closest"], "note": ""},
{"property": "C20", "status": "partial", "theorems": ["WS.C20_identity_partial", "WS.C20_rendered_partial", "WS.C20_merge", "WS.C20_not_general"], "note": "for list maps whose single-line nodes hold one line and without bare strings; merging of any two nodes keeps every attribution (C20_merge); false otherwise, counterexample proved"},
{"property": "C21", "status": "proved", "theorems": ["WS.C21_roundtrip", "WS.C21_format", "WS.C21_no_separator", "WS.C21_decode_format"], "note": ""},
{"property": "C22", "status": "partial", "theorems": ["WS.C22_generator", "WS.C22_node", "WS.C22_objects", "WS.C22_objects_lines", "WS.C22_list_partial", "WS.C22_list_not_general"], "note": "In full at the public interface: sourceAndMap of every object of every program, with columns (any maps, at most 2^32 lines per text) and without (well-formed maps); generators and nodes in full. List maps by themselves: under the stated condition; counterexample with a missing source and index -1."},
{"property": "C23", "status": "partial", "theorems": ["WS.C23_aligned_partial", "WS.C23_exact", "WS.C23_not_general"], "note": "exact: holds if and only if no source without content stands before one with content (C23_exact); counterexample proved"},
{"property": "C24", "status": "proved", "theorems": ["WS.C24_stable", "WS.C24_injective", "WS.C24_at", "WS.C24_resolve", "WS.C24_clear"], "note": "Model of StringCache.js in Model/Js.lean. For every history, clearing included. C24_clear: the condition that the table is not cleared is needed."},
{"property": "C25", "status": "partial", "theorems": ["WS.C25_source", "WS.C25_map_partial", "WS.C25_size_partial", "WS.C25_reads_partial", "WS.C25_map_not_general", "WS.C25_size_not_general"], "note": "The text part and 'asked at most once' hold for every coherent wrapped source and every history. Maps: only if map() is called with options for which the wrapped source gives its default map, because CachedSource.map calls the wrapped map() without options (counterexample C25_map_not_general). Size: only if the size is the UTF-16 length of the text (counterexample C25_size_not_general)."},
{"property": "C26", "status": "partial", "theorems": ["WS.C26_identity_partial", "WS.C26_exact", "WS.countedPlaces_own", "WS.C26_not_general"], "note": "For single-byte texts whose carriage returns stand at ends of lines; false in general, see C26_not_general. C26_exact says for every text (fewer than 2^32 lines) what each character is attributed to; countedPlaces_own says when that is its segment's own start."},
{"property": "C27", "status": "proved", "theorems": ["WS.C27_columns", "WS.C27_lines", "WS.C27_original", "WS.C27_pos"], "note": ""},
{"property": "C28", "status": "proved", "theorems": ["WS.C28_order_irrelevant"], "note": ""},
{"property": "C29", "status": "proved", "theorems": ["WS.C29_split_keep", "WS.C29_split_drop", "WS.C29_pieces_unique"], "note": ""},
{"property": "C30", "status": "partial", "theorems": ["WS.C30_prepend_partial", "WS.C30_add", "WS.C30_not_general", "WS.C30_add_nodes"], "note": "the two branches of prepend for strings are swapped in the code: with a source the code is unattributed, without one it is attributed (proved in C30_not_general); text, order and the rest hold"},
{"property": "C31", "status": "partial", "theorems": ["WS.C31_toString_partial", "WS.C31_exact", "WS.C31_not_general"], "note": "exact: holds if and only if only single-line nodes have text (C31_exact); false for any other list map, counterexample proved"},
{"property": "C32", "status": "partial", "theorems": ["WS.C32_read_partial", "WS.C32_exact", "WS.C32_not_general"], "note": "exact: with the check for repeated names a map is read correctly if and only if every index it uses selects an entry before the first repetition of its table (C32_exact); counterexample proved"},
{"property": "C33", "status": "partial", "theorems": ["WS.C33_source", "WS.C33_reads_partial", "WS.C33_map_only", "WS.C33_not_general", "WS.C33_columns_exact", "WS.C33_lines_exact", "WS.C33_columns", "WS.C33_lines"], "note": "False in general (C33_not_general), and exactly, for any maps: source() answers iff following references ends (C33_source); sourceAndMap() with columns iff in addition nothing wraps a plain string and every map below can be opened in the sense of C81 (C33_columns, no condition on the maps given); without columns iff, unless module is false, every map given as data can be read for its lines in the sense of C79 (C33_lines; generators given must come from API calls). The _exact versions say the same for well-formed maps in simpler terms."},
{"property": "C34", "status": "proved", "theorems": ["WS.C34_check", "WS.C34_operations", "WS.C34_list_reader", "WS.C34_node_reader", "WS.C34_items", "WS.C34_cut", "WS.C34_lines"], "note": "Byte-level model of StringSlice in Model/Slice.lean: every slice made is checked; the list map reader, the column-level reader, the item splitter of OriginalSource, the line iterators and the cutting at a character position never make a slice outside its buffer or inside a character, for every code and map, and compute what the models over characters compute. Buffers are kept alive by the Rc in each slice (not modelled). Inside a mapping piece bytes are read through its characters."},
{"property": "C35", "status": "partial", "theorems": ["WS.C35_ordered_complete_partial", "WS.C35_not_general", "WS.C35_exact", "WS.C35_disturbed"], "note": "False in general (set_unsorted, sort, then a smaller add), counterexample proved. C35_exact says of every history of a generator made anew exactly when all recorded mappings are written in order: iff none of the mappings added after the first read since the last disturbance (an inner map applied, or a mapping out of order) lies before one recorded earlier; C35_disturbed: always if there was no such read. Generators read from a map are left out."},
{"property": "C36", "status": "proved", "theorems": ["WS.C36_concat_marks", "WS.C36_concat_map"], "note": "On histories whose SourceMapSource maps are read the same whenever they are read (StableMap)."},
{"property": "C37", "status": "proved", "theorems": ["WS.C37_kept", "WS.C37_exact", "WS.C37_objects", "WS.C37_objects_exact"], "note": "C37_kept for every node; the exact place each prefix comes from without empty chunks."},
{"property": "C38", "status": "partial", "theorems": ["WS.C38_kept", "WS.C38_origins_partial", "WS.C38_objects", "WS.C38_objects_origins_partial", "WS.C38_not_general"], "note": "Kept characters: every node and all disjoint requests. Origin of the texts: only where a request does not start right between two different origins; false otherwise, see C38_not_general."},
{"property": "C39", "status": "proved", "theorems": ["WS.C39_split", "WS.C39_total"], "note": ""},
{"property": "C40", "status": "partial", "theorems": ["WS.C40_stable_partial", "WS.C40_lines_partial", "WS.C40_not_general"], "note": "Maps given as data, or as ordered generators without inner map: full. Line-level maps: unless generator only with an inner map. False in general, counterexample proved."},
{"property": "C41", "status": "proved", "theorems": ["WS.C41_concat_marks", "WS.C41_concat_map"], "note": "History level: the list map of a concatenation reads as the concatenation of what its items' list maps read as, and the emitted line-level map of the concatenation attributes every line accordingly. Each item's map is read in the same final state (stable maps)."},
{"property": "C42", "status": "partial", "theorems": ["WS.C42_lines", "WS.C42_ends_partial", "WS.C42_ends_nonempty", "WS.C42_not_general"], "note": "line count proved for all nodes; the flag is wrong for nodes of empty code, counterexample proved"},
{"property": "C43", "status": "partial", "theorems": ["WS.C43_indent_partial", "WS.C43_single_line", "WS.C43_exact", "WS.C43_map_partial", "WS.C43_not_general"], "note": "Code with a newline is indented exactly; list maps made of whole lines are indented (C43_map_partial). False of the code for a last line without newline: an additional line holding only the prefix comes first (C43_single_line, C43_exact: for non-empty code the newline is necessary and sufficient; C43_not_general)."},
{"property": "C44", "status": "partial", "theorems": ["WS.C44_kept_partial", "WS.C44_exact_partial", "WS.C44_objects_partial", "WS.C44_linewise_partial", "WS.C44_near", "WS.C44_not_general"], "note": "Kept for prefixes without newline and wrapped objects no two lines of which in a row come from the same source line; exact position and origin of every prefix if the wrapped object hands out its text line by line. False otherwise: two lines from one source line are renumbered when merged (C44_not_general), but at most one line further down, for every prefix and list map (C44_near)."},
{"property": "C45", "status": "partial", "theorems": ["WS.C45_kept_partial", "WS.C45_objects_partial", "WS.C45_near", "WS.C45_not_general"], "note": "For requests whose texts hold no newline (overlapping ones are clipped, C45_kept_partial; disjoint ones for objects, C45_objects_partial), and wrapped objects no two lines of which in a row come from the same source line. False for texts with newlines: what follows an inserted newline is attributed to the next source line, even a missing one (C45_not_general); never further down, for all texts and list maps (C45_near)."},
{"property": "C46", "status": "proved", "theorems": ["WS.C46_source", "WS.C46_unique", "WS.C46_stable"], "note": "All programs over the JavaScript classes without clear(); positions whole or not negative (negative fractions: see C50_negative). source() returns s iff the statements describe the text s."},
{"property": "C47", "status": "proved", "theorems": ["WS.C47_resolves", "WS.C47_strings", "WS.C47_indices"], "note": "All programs over the JavaScript classes; clear() is not in the model (after it indices dangle, C24)."},
{"property": "C48", "status": "partial", "theorems": ["WS.C48_keeps_partial", "WS.C48_when_partial", "WS.C48_moved"], "note": "A property that was read keeps its value through everything but an assignment; before the first read the moment does not matter while the map is not given away. Missing because false of the code (C48_moved): giving the map to a SourceMapSource moves the wasm object, unread properties throw afterwards."},
{"property": "C49", "status": "partial", "theorems": ["WS.C49_stream_partial", "WS.C49_returns_partial", "WS.C49_text_partial", "WS.C49_late", "WS.C49_loop"], "note": "In programs where no ConcatSource is added to after it was itself added: the stream agrees, and hashing returns exactly for the objects that have a text. False otherwise (C49_late: a later item is hashed but not in the text; C49_loop: hashing does not end although the text exists)."},
{"property": "C50", "status": "partial", "theorems": ["WS.C50_gap_partial", "WS.C50_sixteenth", "WS.C50_negative"], "note": "Positions whole or not negative, compared in sixteenths. False otherwise: C50_sixteenth (closer than 1/16), C50_negative (negative fractions sort wrongly)."},
{"property": "C51", "status": "partial", "theorems": ["WS.C51_size", "WS.C51_ascii_partial", "WS.C51_units"], "note": "Which unit each object uses, for all programs; agreement for ASCII texts. False in general (C51_units): leaf classes count UTF-16 units, the others bytes."},
{"property": "C52", "status": "partial", "theorems": ["WS.C52_columns_partial", "WS.C52_lines_partial", "WS.C52_tree", "WS.C52_not_general"], "note": "column by column for programs without ReplaceSource, line by line with it unless a given map refers to a source it does not list; exact for single trees; false with ReplaceSource (a source gets the content of the next one), counterexample proved"},
{"property": "C53", "status": "partial", "theorems": ["WS.C53_partial", "WS.C53_unreplaced", "WS.C53_not_general"], "note": "Column level. Unconditional without ReplaceSource; with ReplaceSource under the condition Overruled on the node, without which it is false (counterexample)."},
{"property": "C54", "status": "proved", "theorems": ["WS.C54_emitted", "WS.C54_assigned"], "note": "Before an assignment: what the wasm object computes, for reads before the map is given to a SourceMapSource (see C48 for reads after that). After an assignment: always."},
{"property": "C55", "status": "partial", "theorems": ["WS.C55_given_partial", "WS.C55_inner_partial", "WS.C55_not_general"], "note": "Map and inner map. Excluded: names assigned to maps without columns, for which it is false (counterexample)."},
{"property": "C56", "status": "partial", "theorems": ["WS.C56_partial", "WS.C56_not_general", "WS.C56_toString_partial"], "note": "Proved for programs without strings put in front with a file (C30), list maps of other objects, and rewriting other than the identity over parts that are not multi-line single-line nodes; the negation witnesses show the first and last condition is needed. toString() gives the text in programs with single-line nodes only (other nodes are left out, C31_exact)."},
{"property": "C57", "status": "proved", "theorems": ["WS.C57_exact", "WS.C57_fromString", "WS.C57_raw"], "note": "Exact for all statements of the list-map classes; for fromStringWithSourceMap well-formed maps are shown not to throw."},
{"property": "C58", "status": "partial", "theorems": ["WS.C58_transfer", "WS.C58_objects", "WS.C58_kept", "WS.C58_text_partial", "WS.C58_text_not_general", "WS.C58_text_stale", "WS.C58_map_moved", "WS.C58_map_kept", "WS.C58_map", "WS.C58_hash", "WS.C58_size_partial", "WS.C58_size_units", "WS.C58_returns"], "note": "Objects, persistence of texts and maps, where maps come from, hashes and that reads return are proved in full. The returned text (and size, in one of two units) is that of the wrapped object if the wrapped objects are not edited after the first text is kept, and sourceAndMap is used only with columns and without PrefixSources (or not at all); the code violates it otherwise (C58_text_not_general, C58_text_stale, C58_map_moved)."},
{"property": "C59", "status": "partial", "theorems": ["WS.C59_partial", "WS.C59_object", "WS.C59_returns", "WS.C59_not_general", "WS.C74_given_nodes_partial"], "note": "Any program of source nodes: the pair of toStringWithSourceMap, read at any later time, gives the characters put in and, for each, file, line, column and name. Parts from objects are as sourceAndMap says (C59_object: exactly the same effect). C59_returns: which statements on nodes throw, from the program text alone. Missing, as false (C59_not_general): line 0 (and numbers beyond u32); nodes of objects containing a ReplaceSource are not described. Also in programs over all classes, with emitted maps given back (C74_given_nodes_partial)."},
{"property": "C60", "status": "partial", "theorems": ["WS.C60_partial", "WS.C60_nodes_partial", "WS.C60_lines_partial", "WS.C60_lines_given_partial", "WS.C60_null_twice"], "note": "Read at any later time, the pair handed out by sourceAndMap()/map() of an object (with columns: in programs with SourceNodes, text of fewer than 2^32 lines; without columns: maps given to SourceMapSources whose original lines fit, plain or emitted earlier under the conditions of C66) or by toStringWithSourceMap() of a node decodes, has only valid indices, is in text order, lists no file and no name twice. Missing: null can be listed twice among the files (C60_null_twice); line-level maps when an emitted pair is given together with an inner map, or after a file name in an emitted pair was unset."},
{"property": "C61", "status": "partial", "theorems": ["WS.C61_fresh", "WS.C61_leaf", "WS.C61_gone", "WS.C61_kept", "WS.C61_same", "WS.C61_memory_partial", "WS.C61_memory_not_general", "WS.C61_nodes_not_general"], "note": "Programs of all source classes with clear() anywhere: new objects behave as in a new process, old ones answer as before or throw. Freed memory is not used if between calls of clear() no two RawSources have the same value; false otherwise (counterexample). SourceNodes survive clear() and then name wrong files (counterexample)."},
{"property": "C62", "status": "partial", "theorems": ["WS.C62_partial", "WS.C62_joined"], "note": "All programs whose SourceMapSources are given ordinary, readable maps. C62_joined: programs without PrefixSource and ReplaceSource: exactly one attribution, and the read map states it. C62_partial: with prefixes and replacements; of these the attribution is stated exactly when no new lines are put in and no two adjoining lines have one origin (C44, C45), and up to one line further down otherwise (see C68). Overlapping replacements: each takes what the ones before it left. Emitted maps given back: C66."},
{"property": "C63", "status": "partial", "theorems": ["WS.C63_partial", "WS.C63_exact_partial", "WS.Sms.node_says", "WS.Sms.node_says_inner", "WS.ownPlaces_start"], "note": "All texts; the columns of originals are the counted ones of C26_exact (own starts under ownPlaces_start; otherwise false: C26_not_general). Well-formed maps given as ordinary objects, no ReplaceSource inside. Missing: the cases shown false by C32_not_general, C17_not_general, C53_not_general. Emitted maps given back: C66."},
{"property": "C64", "status": "partial", "theorems": ["WS.C64_ascending", "WS.C64_tree", "WS.C64_unedited", "WS.Spec.Unedited.unique", "WS.C64_not_general"], "note": "Objects whose originals have at most 2^32 lines (Fits), whose maps are texts or generators with ordered mappings and no inner map (StableMap), with whole and disjoint requests (Parted); C65 drops the disjointness for JavaScript programs. Without the ascending condition it is false (counterexample)."},
{"property": "C65", "status": "partial", "theorems": ["WS.C65_partial", "WS.C65_exact_partial", "WS.World.run_numbered", "WS.displayed_sane", "WS.Spec.JCarries.unique", "WS.Spec.JUnedited.unique", "WS.C65_not_general", "WS.C65_names_partial", "WS.C65_names_not_general", "WS.World.run_carries_near"], "note": "As C63 (counted columns of originals, well-formed maps given as ordinary objects), requests that do not end before they begin, nothing deletable directly in front of code from an earlier place (Orderly; without it false: counterexample). Names are kept where in the unedited code one place has one name (C65_names_partial; otherwise false: C65_names_not_general). Nothing is claimed of the texts put in."},
{"property": "C66", "status": "partial", "theorems": ["WS.C66_partial", "WS.C66_exact_partial", "WS.C66_edited_partial", "WS.C66_lines_partial", "WS.C66_again_partial", "WS.World.run_given", "WS.World.run_numbered_given", "WS.C66_edited_names_partial"], "note": "All programs that give emitted maps (moved or copied) to SourceMapSources, under the conditions of C63/C65/C62 on the maps as they read. Missing: an emitted map given together with an inner map, maps read with a file without name or with two segments at one position, names assigned in programs with line maps (dropped: C55_not_general)."},
{"property": "C67", "status": "partial", "theorems": ["WS.C67_partial", "WS.C67_given_partial", "WS.C44_files", "WS.C45_files"], "note": "For every program as to the files of all characters; overlapping replacements each take what the ones before left; maps given to SourceMapSources must be readable (emitted ones: C67_given_partial, with C66's conditions). C44_files and C45_files are the unconditional statements about list maps."},
{"property": "C68", "status": "partial", "theorems": ["WS.C68_partial", "WS.C68_given_partial", "WS.C44_near", "WS.C45_near"], "note": "For every program: file exact, line off by at most the number of PrefixSources and ReplaceSources one in another; overlapping replacements each take what the ones before left; maps given to SourceMapSources must be readable (emitted ones: C68_given_partial, with C66's conditions). C44_near and C45_near are the unconditional statements about list maps."},
{"property": "C69", "status": "partial", "theorems": ["WS.C69_partial", "WS.wasmPrefixMap_near", "WS.wasmIdenticalMap_near", "WS.C74_given_lists_partial"], "note": "For every program: file exact, line off by at most the number of rewritings. Nothing is said of strings put in front (false, C30), of the function for tests and of arrays (never usable); maps given to SourceMapSources must be ordinary objects that can be read. Emitted maps given back: C74_given_lists_partial."},
{"property": "C70", "status": "partial", "theorems": ["WS.C70_partial", "WS.C70_answers", "WS.C70_after", "WS.C70_not_general", "WS.C70_not_columns"], "note": "line maps of corresponding objects of two programs read alike, whatever else the processes did; a program behind another. Missing: maps emitted before and given to corresponding SourceMapSources. False of the code with columns (C70_not_columns) and if one object corresponds to two copies under a PrefixSource or ReplaceSource (C70_not_general)."},
{"property": "C71", "status": "proved", "theorems": ["WS.C71_text", "WS.C71_node", "WS.C71_lines", "WS.C71_emit", "WS.C71_not_columns", "WS.C71_not_lines", "WS.C71_not_list", "WS.C71_not_replace"], "note": "reads of trees in wasm32 arithmetic equal the model's reads within the stated ranges; four counterexamples outside them. Counters that grow with the text only are unbounded in both."},
{"property": "C72", "status": "partial", "theorems": ["WS.C72_function", "WS.C72_test_partial", "WS.C72_identical", "WS.C72_not_general"], "note": "the function on every text; the text of the rewritten list map when its pieces are whole lines; identity. Missing: list maps with a node ending inside a line (false of the code, C72_not_general)."},
{"property": "C73", "status": "partial", "theorems": ["WS.C73_transfer", "WS.C73_objects_partial", "WS.C73_objects_carry_partial", "WS.C73_objects_lines_partial", "WS.C73_origin", "WS.C73_columns_partial", "WS.C73_carries_partial", "WS.C73_lines_partial", "WS.C73_unedited_partial", "WS.C73_unedited_lines_partial", "WS.C73_objects_given_partial", "WS.C73_columns_given_partial", "WS.C73_carries_given_partial", "WS.C73_lines_given_partial", "WS.C73_stale", "WS.C73_options"], "note": "C73_transfer and C73_origin hold for all programs. What the maps show is proved under the conditions of C63 (no ReplaceSource in the object; well-made plain maps), C65 (with ReplaceSources, for code that stays) and C62 (line maps), also where emitted pairs are given back to SourceMapSources (the given theorems, with the maps as they read when given, under the conditions of C66), for pairs not given to SourceMapSources nor assigned to themselves. Asked for lines a map with columns may be handed out (C73_options, a fault of the code), and maps kept before an edit are stale (C73_stale)."},
{"property": "C74", "status": "partial", "theorems": ["WS.C74_text", "WS.C74_columns_partial", "WS.C74_lines_partial", "WS.C74_nodes_partial", "WS.C74_lists_partial", "WS.C74_cached_columns_partial", "WS.C74_cached_lines_partial", "WS.C74_cached_unedited_partial", "WS.C74_cached_text_partial", "WS.C74_edited_partial", "WS.C74_edited_exact_partial", "WS.C74_cached_edited_partial", "WS.C74_unused_node", "WS.C74_given_columns_partial", "WS.C74_given_lines_partial", "WS.C74_given_nodes_partial", "WS.C74_given_lists_partial", "WS.C74_given_cached_partial", "WS.C74_given_edited_partial", "WS.C74_given_cached_edited_partial", "WS.C74_given_edited_names_partial"], "note": "Proved for programs over all classes: texts of all objects (both directions), maps with columns of objects without ReplaceSource and, as in C65, of edited objects whose files are in the order in which the statements of all classes mention them, maps without columns of all objects, maps of trees of nodes and of list maps as in C59 and C69, texts and maps that CachedSources return as in C58 and C73. An unused SourceNode can make the map of an edited object wrong (C74_unused_node). Where pairs that objects, nodes, list maps and CachedSources emit are given back to SourceMapSource, the same holds with the maps as they read when given (C74_given_*; for edited objects with the files as these maps mention them). Missing: edited objects whose files are in another order (false: C74_unused_node)."},
{"property": "C75", "status": "partial", "theorems": ["WS.C75_partial", "WS.C75_smallest_partial", "WS.C75_least", "WS.C75_encode", "WS.C75_same_partial", "WS.C75_all_partial", "WS.C75_cached_partial", "WS.C75_given_partial", "WS.C75_cached_given_partial", "WS.C75_not_empty", "WS.SmNode.render_exact", "WS.C75_all_given_partial", "WS.C74_given_cached_edited_partial"], "note": "Proved for programs whose given maps are well-formed (ordinary objects, or emitted maps as they read: C75_given_partial) and objects without ReplaceSource and without empty strings, also in programs over all classes (C75_all_partial; with emitted maps of any class given back C75_all_given_partial) and for maps kept by CachedSource (C75_cached_partial, C75_cached_given_partial, C74_given_cached_edited_partial): source, sources, names and mappings of the pair are exactly the smallest map of what the object says (which is one thing): every map that says it has at least as many segments, sources and names; two programs that say the same of an object read the same. False with empty strings (C75_not_empty) and with ReplaceSource (C70_not_columns); sourcesContent: see C76."},
{"property": "C76", "status": "partial", "theorems": ["WS.C76_partial", "WS.C76_whole_partial", "WS.C76_parallel", "WS.C76_not_parallel", "WS.C76_all_partial", "WS.C76_cached_partial"], "note": "Proved for programs whose given maps are well-formed ordinary objects and objects without ReplaceSource, also in programs over all classes (C76_all_partial) and for maps kept by CachedSource (C76_cached_partial); with C75 all properties of the pair are determined by the statements (C76_whole_partial). The parallel part: C76_parallel, and false otherwise (C76_not_parallel). Missing: ReplaceSource (false, C52_not_general), maps that were emitted before and given back."},
{"property": "C77", "status": "partial", "theorems": ["WS.C77_exact", "WS.C77_read", "WS.C77_units", "WS.C77_program", "WS.C77_source", "WS.C77_source_exact", "WS.C77_pair", "WS.C77_mappings", "WS.C77_not_general", "WS.C77_columns_off"], "note": "False in general: a string comes back exactly if its surrogates stand in pairs and it does not begin with a byte order mark (C77_exact). Programs: C77_program says that reading texts through the decoder changes nothing but leading byte order marks of texts; C77_source, C77_source_exact and C77_pair say when. C77_not_general and C77_columns_off are counterexamples."},
{"property": "C78", "status": "partial", "theorems": ["WS.C78_partial", "WS.C78_settles_partial", "WS.C78_all_partial", "WS.C78_all_settles_partial"], "note": "Any number of rounds, with other statements between them, from the pair of an object without ReplaceSource and empty strings (C78_partial) or from any pair whose map as it reads is well-formed and attributes its characters, also after assignments (C78_settles_partial: the first round gives the smallest map, further ones the same). source, sources, names and mappings; the _all_ theorems add sourcesContent, from the first pair on in the first case and from the pair of the first round on in the second. Conditions of C66: no inner map beside an emitted one, all files have names; numbers fit 32 bits. Missing: sourcesContent in the first round of a pair that was assigned to, maps of lines, pairs with two segments at one position."},
{"property": "C79", "status": "partial", "theorems": ["WS.C79_reads", "WS.C79_nodes", "WS.C79_rendered_partial", "WS.C79_not_general"], "note": "C79_reads (an iff) and C79_nodes are the reading, in full, for strings of any characters. The rendered half needs line numbers other than 0: line 0 is written as line -1, which no reader accepts (C79_not_general). Release build: additions wrap. Line counts past 2^32 while blank lines continue are not wrapped in this model; VLQ numbers of 2^60 and more, which the vlq crate refuses, are outside it (see DESIGN)."},
{"property": "C80", "status": "proved", "theorems": ["WS.C80_refuses", "WS.C80_takes", "WS.C80_writes", "WS.C80_checked"], "note": "For generators made by new and add_mapping. Writing a line 0 is a subtraction below zero, taken as a trap (release build: a wrapped count of about 2^32 separators)."},
{"property": "C81", "status": "proved", "theorems": ["WS.C81_reads", "WS.C81_same"], "note": "The parser is that of the crate source_map_mappings (from its documented behaviour; numbers below 2^60). Segments of more than five numbers are accepted: the sixth begins the next mapping."},
{"property": "C82", "status": "partial", "theorems": ["WS.C82_unaffected_partial", "WS.C82_returns", "WS.C82_throws", "WS.C82_memory_partial", "WS.C82_kept", "WS.C82_gone", "WS.C82_not_general"], "note": "False in general (C82_not_general): a RawSource shares its wasm object with those of the same value, made before or after, so freed memory is used; updateHash of an object containing a freed ReplaceSource throws. Proved: if a program returns, it returns what it would without free() (C82_returns); exceptions are due to free() or thrown anyway (C82_throws); careful programs are not affected at all (C82_unaffected_partial); without equal RawSources no freed memory is ever used (C82_memory_partial); what freed sources still answer and that they throw otherwise (C82_kept, C82_gone)."},
{"property": "C83", "status": "partial", "theorems": ["WS.C83_shown", "WS.C83_assigned_partial", "WS.C83_unseen", "WS.C83_not_general"], "note": "False of the code: changes in place do not mark the map, so a SourceMapSource takes the unchanged map from wasm (C83_not_general). Proved: reads give the new entries until the next change or assignment (C83_shown); if each change comes after an assignment to sources, sourcesContent or mappings of the same map, the program returns what it returns with assignments (C83_assigned_partial); without assignments, if the changed properties are not read afterwards and the map is given once at most, the other statements return what they return without the changes (C83_unseen)."},
{"property": "C84", "status": "partial", "theorems": ["WS.C84_partial", "WS.C84_given_partial", "WS.C84_all_given_partial"], "note": "for every program whose supplied maps are well-formed (Exact) and whose positions fit; all requests, no order assumed. Given-back emitted maps and programs over all classes included. Missing: supplied maps that are not well-formed."},
{"property": "C85", "status": "partial", "theorems": ["WS.C85_columns", "WS.C85_nodes", "WS.C85_lines_bytes", "WS.C85_lines_partial", "WS.C85_lines_given_partial", "WS.C85_lines_not_general"], "note": "maps with columns, of objects and of source nodes: proved for all programs. Maps without columns: proved with columns counted in bytes; in characters for ASCII texts; false otherwise (counterexample)."},
{"property": "C86", "status": "partial", "theorems": ["WS.C86_source", "WS.C86_columns", "WS.C86_returns", "WS.C86_given_columns", "WS.C86_given_returns", "WS.C86_all_given_columns", "WS.C86_lines_not_general"], "note": "Texts: all programs. Maps with columns: all programs whose maps are given to SourceMapSources as ordinary objects (of any content; inner maps of any kind); with emitted maps given back under the conditions of C66, also in programs over all classes (C86_given_*, C86_all_given_columns). If one pair is returned, so is the other (C86_returns). Maps without columns: false (C86_lines_not_general); where C62 applies, both say what the statements say."},
{"property": "C87", "status": "partial", "theorems": ["WS.C87_wasm_partial", "WS.C87_wasm_distinct_partial", "WS.C87_wasm_second", "WS.C87_settles_partial", "WS.C87_distinct_partial", "WS.C87_nodes_partial", "WS.C87_not_minus_one", "WS.C87_not_line", "WS.C87_wasm_not_minus_one"], "note": "With the 32-bit arithmetic of the wasm build: full round trip for every map that can be read, if no file is named -1 or, more generally, if the files of the first rendering are distinct (fewer than 2^32 files). Without that condition every map settles after two readings instead of one (C87_wasm_second, fewer than 2^32 - 1 files). With unbounded line numbers also the lines named must leave room for the lines of the code within 32 bits. The conditions are needed (counterexamples)."},
{"property": "C88", "status": "partial", "theorems": ["WS.C88_partial", "WS.C88_emitted_partial", "WS.C88_round_runs"], "note": "For ordinary map objects and for line pairs of any object, any number of rounds. The lines named must leave room for the lines of the code within 32 bits (C87_not_line); for an emitted first map the files of the pair after the first reading must be distinct (they are, if at most one is without a name)."}
]}
