{"id": "C01", "title": "Concatenation is exact and flattening is a snapshot", "statement": "source() of a ConcatSource is the source() of its added items joined in the order of the add calls, nothing inserted or lost. Adding another ConcatSource contributes the items that one held at the moment of the add; items added to it later do not show up, while later edits of a shared item (for example replace on a ReplaceSource that was added) do.", "quantifier": "for every object graph, every sequence of add calls, every text", "why_tests_cant": "the claim is about every add history and every sharing pattern between objects; a test fixes one", "anchors": ["src/concat_source.rs: ConcatSource::add, source", "src/source.rs: Source::source"]}
{"id": "C02", "title": "size() is the byte length of source()", "statement": "Whenever source() succeeds on an object, size() succeeds too and returns the number of UTF-8 bytes of that text; and vice versa.", "quantifier": "for every reachable object graph and every text, ASCII or not", "why_tests_cant": "sizes of composite objects are summed or computed along a different code path than the text", "anchors": ["src/source.rs: SourceTrait::size", "src/concat_source.rs: size", "src/raw_source.rs: size", "src/original_source.rs: size"]}
{"id": "C03", "title": "PrefixSource indents every line exactly once", "statement": "source() of a PrefixSource is the inner text with the prefix put in front of each of its lines, where a trailing empty line (text ending in a newline) gets no prefix and the empty text gets one prefix.", "quantifier": "for every prefix and every inner text", "why_tests_cant": "line structure (empty lines, CR, trailing newline, prefix containing newlines) is unbounded", "anchors": ["src/prefix_source.rs: make_prefixed_string, PrefixSource::source"]}
{"id": "C04", "title": "Disjoint replacements splice exactly the named ranges", "statement": "If no two requested ranges of a ReplaceSource overlap, source() is the inner text with characters start..end of every request replaced by its text (insert(p) replaces nothing and puts the text before character p), all positions counted in characters of the inner text; positions beyond the end act at the end.", "quantifier": "for every inner text and every set of non-overlapping requests in any call order", "why_tests_cant": "unbounded number of edits; stack algorithm cuts from the end so correctness is an induction over the edit list", "anchors": ["src/replace_source.rs: replace, insert, sort_replacements, replace_string", "src/utils.rs: split_str"]}
{"id": "C05", "title": "The edit result does not depend on call order, ties keep call order", "statement": "Two call sequences that make the same requests and agree on the relative order of requests with identical (start,end) give the same source(); texts inserted at the same position appear in call order.", "quantifier": "for every permutation of every list of requests", "why_tests_cant": "needs all permutations; relies on the sort key being a total order", "anchors": ["src/replace_source.rs: replace, insert, sort_replacements, replace_string"]}
{"id": "C06", "title": "Reading never changes what is read later", "statement": "Inserting any number of source(), size(), map() or sourceAndMap() reads at any points of a call history does not change the text returned by any later read of any object.", "quantifier": "for every history of constructor, add, replace, insert and read calls, every insertion point", "why_tests_cant": "reads mutate internal state (lazy sort, caches, inner map application); histories are unbounded", "anchors": ["src/replace_source.rs: sort_replacements", "src/source_map_source.rs: get_data, get_generator, node", "src/source.rs"]}
{"id": "C07", "title": "The text that accompanies the column-level map is source()", "statement": "sourceAndMap().source equals source() for every object.", "quantifier": "for every object graph and text", "why_tests_cant": "the map path rebuilds the text from a tree of chunks, split and prefixed independently of the text path", "anchors": ["src/*_source.rs: node, source", "src/source_map/source_node.rs: to_string_with_source_map"]}
{"id": "C08", "title": "The text that accompanies the line-level map is source()", "statement": "sourceAndMap({columns:false}).source equals source() for every object.", "quantifier": "for every object graph and text", "why_tests_cant": "a third code path (list map and per-node rewriting) rebuilds the text; agreement must hold for all edits and prefixes", "anchors": ["src/*_source.rs: list_map, source", "src/source_list_map/source_list_map.rs: map_generated_code, to_string_with_source_map", "src/replace_source.rs: ReplaceMappingFunction"]}
{"id": "C09", "title": "Column-level maps attribute every generated character to its node", "statement": "Decode the emitted source map by the Source Map v3 rules and look up any generated character: the result is the original source, line, column and name of the SourceNode the character came from, and nothing if that node has no original position.", "quantifier": "for every tree of source nodes, every generated character", "why_tests_cant": "mapping emission is stateful and de-duplicating; correctness is about every character of every tree", "anchors": ["src/source_map/source_node.rs: walk, ToSourceMapContext::process_chunk, to_string_with_source_map", "src/source_map/source_map_generator.rs: to_source_map, serialize_mappings"]}
{"id": "C10", "title": "Serialized mappings decode to exactly the recorded mappings", "statement": "The mappings string of a generated map, decoded by the Source Map v3 rules together with its sources and names arrays, yields exactly the mappings that were added, in generated order.", "quantifier": "for every list of mappings added in any order", "why_tests_cant": "delta encoding, VLQ, separators and sorting over unbounded lists", "anchors": ["src/source_map/source_map_generator.rs: add_mapping, serialize_mappings, to_source_map", "src/source_map/types/mapping_list.rs", "src/source_map/types/mapping.rs"]}
{"id": "C11", "title": "Reading a map back and writing it again loses nothing", "statement": "Building a generator from a map this library wrote and serializing it again gives the same mappings, sources and contents.", "quantifier": "for every map written by the library", "why_tests_cant": "round trip over unbounded mapping lists and tables", "anchors": ["src/source_map/source_map_generator.rs: from_source_map, to_source_map"]}
{"id": "C12", "title": "Line-level maps point each line of each node at the right original line", "statement": "Decode the mappings string of a list map's output: a piece of mapped code that starts at original line n yields a segment exactly at the byte column where it starts, pointing at its source and line n, and each further line of it points (at column 0) to the next original line; single-line pieces point all their lines to the same line; plain code opens an unmapped segment only at a line start. There are no other segments.", "quantifier": "for every list of nodes", "why_tests_cant": "running column and delta state over unbounded node lists, multi-line pieces, empty pieces", "anchors": ["src/source_list_map/code_node.rs", "src/source_list_map/source_node.rs: get_mappings", "src/source_list_map/single_line_node.rs: get_mappings", "src/source_list_map/source_list_map.rs: to_string_with_source_map"]}
{"id": "C13", "title": "Reading code plus map into a list map loses no text", "statement": "Building a list map from code and a source map and rendering it again returns the code unchanged, whatever the number of mapping lines compared with code lines.", "quantifier": "for every code text, every well-formed mappings string and every sources array", "why_tests_cant": "line counts of map and code may disagree arbitrarily; the code re-slices the text by pointer offsets", "anchors": ["src/source_list_map/from_string_with_source_map.rs", "src/types/string_slice.rs: offset, Split"]}
{"id": "C14", "title": "Reading code plus map into a list map keeps each line's origin", "statement": "After building a list map from code and a map and rendering it, line i is attributed to the source and line of the first source-bearing segment of line i of the input map; a blank line without one right after an attributed line continues to the next original line; every other line is unattributed.", "quantifier": "for every code text and every well-formed map", "why_tests_cant": "stateful grouping of adjacent lines into nodes over unbounded inputs", "anchors": ["src/source_list_map/from_string_with_source_map.rs: add_code, add_source", "src/source_list_map/source_node.rs"]}
{"id": "C15", "title": "Turning code plus map into nodes loses no text", "statement": "Building source nodes from code and a map gives nodes whose joined text is the code, for any mapping list, sorted or not, in range or not.", "quantifier": "for every code and every mapping list", "why_tests_cant": "cursor arithmetic over lines and columns with clamping", "anchors": ["src/source_map/from_string_with_source_map.rs", "src/utils.rs: split_string_slice"]}
{"id": "C16", "title": "Turning code plus map into nodes attributes each character as the map does", "statement": "If the mapping list is ordered by generated position, each character of the nodes built from code and map carries the original position, source and name of the last mapping at or before it on its line, or none.", "quantifier": "for every code and every ordered mapping list", "why_tests_cant": "character-level statement over unbounded inputs", "anchors": ["src/source_map/from_string_with_source_map.rs", "src/source_map/source_node.rs: add_mapping_with_code"]}
{"id": "C17", "title": "SourceMapSource passes its map through", "statement": "For a SourceMapSource without an inner map, the emitted column-level map attributes every generated character exactly as the given map does.", "quantifier": "for every code and every valid map", "why_tests_cant": "composition of parse, node building, walk and serialization", "anchors": ["src/source_map_source.rs: node, get_generator", "src/source_map/from_string_with_source_map.rs"]}
{"id": "C18", "title": "Applying an inner map composes the two maps", "statement": "After applying an inner map for file f, looking a generated position up gives: the outer result if it is not in f or the inner map has no source for that original position; otherwise the inner map's result for that position (name taken from the inner map when it has one). Nothing else changes.", "quantifier": "for every outer and inner map and every position", "why_tests_cant": "composition of two unbounded relations", "anchors": ["src/source_map/source_map_generator.rs: apply_source_map_generator, original_position_for"]}
{"id": "C19", "title": "Position lookup returns the closest preceding mapping on the line", "statement": "original_position_for(line, col) returns the mapping with the greatest generated column not after col on that line, and an empty result if there is none.", "quantifier": "for every generator and every query", "why_tests_cant": "binary search over lists of any length, boundary positions", "anchors": ["src/source_map/source_map_generator.rs: original_position_for"]}
{"id": "C20", "title": "The identity rewrite of a list map changes nothing observable", "statement": "mapGeneratedCode with the identity function yields a list map with the same text and with every line attributed to the same source and original line.", "quantifier": "for every list map", "why_tests_cant": "splitting into lines, re-merging and re-numbering over unbounded lists", "anchors": ["src/source_list_map/source_list_map.rs: map_generated_code", "src/source_list_map/source_node.rs: get_normalized_nodes, merge", "src/source_list_map/single_line_node.rs: merge", "src/source_list_map/code_node.rs: merge"]}
{"id": "C21", "title": "VLQ numbers survive encoding", "statement": "Decoding an encoded number gives the number back and leaves the following text untouched; no encoded number contains a separator.", "quantifier": "for every integer and every following text", "why_tests_cant": "unbounded integers", "anchors": ["src/source_map/source_map_generator.rs: serialize_mappings", "src/source_list_map/*: get_mappings"]}
{"id": "C22", "title": "Emitted indices are valid and tables have no duplicates", "statement": "Every source index in an emitted mappings string is within the emitted sources array, every name index within names, and neither array repeats an entry.", "quantifier": "for every tree and every list map", "why_tests_cant": "global invariant over an unbounded emission", "anchors": ["src/source_map/source_map_generator.rs: add_mapping, serialize_mappings, to_source_map", "src/source_list_map/mappings_context.rs: ensure_source, get_arrays"]}
{"id": "C23", "title": "sourcesContent lines up with sources", "statement": "sourcesContent[i] of an emitted map, when present, is the content registered for sources[i].", "quantifier": "for every set of sources with or without content", "why_tests_cant": "depends on which subset of sources has content", "anchors": ["src/source_map/source_map_generator.rs: to_source_map", "src/source_list_map/mappings_context.rs: get_arrays"]}
{"id": "C24", "title": "Interned strings are stable", "statement": "In the string table, looking up the index returned for a string gives that string for as long as the table is not cleared, whatever is added afterwards; add returns the same index for equal strings and different indices for different ones; negative indices give null.", "quantifier": "for every history of add and addUnchecked", "why_tests_cant": "histories are unbounded", "anchors": ["wasm-api/StringCache.js: add, addUnchecked, at, resolveIntArray, clear"]}
{"id": "C25", "title": "CachedSource returns what the wrapped source returned", "statement": "Every read of a CachedSource (source, size, map, sourceAndMap with any options) equals the same read of the wrapped, unchanged source, whatever reads happened before, and source() of the wrapped object is asked at most once.", "quantifier": "for every wrapped source and every history of reads with any options", "why_tests_cant": "cache state depends on the history of calls and their options", "anchors": ["wasm-api/CachedSource.js"]}
{"id": "C26", "title": "OriginalSource maps every position to itself", "statement": "In the column-level map of an OriginalSource each mapped segment starting at line l, column c points to line l, column c of the original, and every non-blank segment is mapped.", "quantifier": "for every text", "why_tests_cant": "segmentation by a regular expression over arbitrary text", "anchors": ["src/original_source.rs: node, split_code"]}
{"id": "C27", "title": "Line-to-line sources map line i to line i", "statement": "In the maps of LineToLineMappedSource (both granularities) and in the line-level map of OriginalSource, every line i of the text is attributed to line i, column 0 of its source.", "quantifier": "for every text", "why_tests_cant": "any number and shape of lines", "anchors": ["src/line_to_line_mapped_source.rs: node, list_map", "src/original_source.rs: list_map"]}
{"id": "C28", "title": "Output does not depend on hash iteration order", "statement": "The emitted map of a node tree is the same for every order in which the per-node content tables are iterated.", "quantifier": "for every tree and every permutation of every table", "why_tests_cant": "hash order is not controllable from a test", "anchors": ["src/source_map/source_node.rs: walk, source_contents", "src/source_map/source_map_generator.rs: set_source_content"]}
{"id": "C29", "title": "Line splitting is exact", "statement": "The pieces produced by the line splitter joined together give the text back; every piece but the last ends with the separator and contains it nowhere else; the last contains none; without separators kept, joining the pieces with the separator gives the text back. The remaining text reported between steps is exactly the not yet produced pieces.", "quantifier": "for every text and every separator", "why_tests_cant": "iterator state over unbounded text", "anchors": ["src/types/string_slice.rs: Split, split, split_keep_seperator"]}
{"id": "C30", "title": "Prepending to a list map keeps the attribution of the prepended code", "statement": "prepend(code, source, content) puts code in front and attributes it to source from line 1; prepend(code) puts unattributed code in front; the rest of the map is unchanged.", "quantifier": "for every list map and every code", "why_tests_cant": "interaction with merging of the first node", "anchors": ["src/source_list_map/source_list_map.rs: prepend"]}
{"id": "C31", "title": "toString of a list map is its rendered text", "statement": "toString() of a list map equals toStringWithSourceMap().source.", "quantifier": "for every list map", "why_tests_cant": "two separate renderers", "anchors": ["src/source_list_map/source_list_map.rs: to_string, to_string_with_source_map"]}
{"id": "C32", "title": "Maps with repeated source names are read correctly", "statement": "Reading a map whose sources array repeats a name attributes every mapping to the name its index selects in that array.", "quantifier": "for every map", "why_tests_cant": "depends on the pattern of repetitions", "anchors": ["src/source_map/source_map_generator.rs: from_source_map"]}
{"id": "C33", "title": "Reads of API-built objects do not trap", "statement": "Every object graph that can be built through the public constructors and mutators answers source(), size(), map() and sourceAndMap() without trapping.", "quantifier": "for every construction history", "why_tests_cant": "needs all construction histories, including cyclic and string-wrapped ones", "anchors": ["src/source.rs: Source::node, Source::list_map", "src/concat_source.rs: add", "src/wasm_api/*"]}
{"id": "C34", "title": "String slices stay inside their buffer", "statement": "Every slice obtained through the slicing operations used while reading code and maps designates a range inside the backing buffer, on character boundaries; in particular the backward offsets in the list map reader never step before the start of the buffer.", "quantifier": "for every code and map", "why_tests_cant": "raw pointer arithmetic; out-of-bounds access is undefined behaviour that a passing test cannot exclude", "anchors": ["src/types/string_slice.rs: substr, split_at, offset, Split", "src/source_list_map/from_string_with_source_map.rs"]}
{"id": "C35", "title": "Mappings are emitted in generated order whatever the insertion history", "statement": "After any sequence of mapping additions, inner-map applications and serializations, the serialized mappings are ordered by generated position and contain every added mapping.", "quantifier": "for every history", "why_tests_cant": "the sorted flag and the cached last element are history dependent", "anchors": ["src/source_map/types/mapping_list.rs: add, sort, set_unsorted", "src/source_map/source_map_generator.rs"]}
{"id": "C36", "title": "Concatenation keeps every item's column-level attribution", "statement": "In the column-level map of a ConcatSource every character keeps the attribution it has in its own item's map; string items are unattributed.", "quantifier": "for every list of items", "why_tests_cant": "any number and kind of items", "anchors": ["src/concat_source.rs: node", "src/source_map/source_node.rs"]}
{"id": "C37", "title": "Prefixing keeps every character's column-level attribution", "statement": "In the column-level nodes of a PrefixSource, deleting the inserted prefixes gives the inner characters in order with unchanged attribution.", "quantifier": "for every inner node tree and prefix", "why_tests_cant": "chunk-wise rewriting of an unbounded tree", "anchors": ["src/prefix_source.rs: clone_and_prefix, node"]}
{"id": "C38", "title": "Editing keeps the attribution of the characters it keeps", "statement": "In the column-level nodes of a ReplaceSource, every character that survives the edits keeps its attribution, and the replacement text is attributed to the start of the region it replaces (or unattributed if that is).", "quantifier": "for every inner node tree and every list of requests", "why_tests_cant": "tree splitting at arbitrary character positions", "anchors": ["src/replace_source.rs: node, split_sourcenode, replacement_to_sourcenode"]}
{"id": "C39", "title": "Splitting a node tree is lossless", "statement": "Splitting a tree of nodes at any character position gives two trees whose joined characters and attributions are those of the original, the left one holding exactly that many characters; if the tree is shorter the shortfall is reported exactly.", "quantifier": "for every tree and position", "why_tests_cant": "arbitrary nesting and empty nodes", "anchors": ["src/replace_source.rs: split_sourcenode", "src/utils.rs: split_string_slice"]}
{"id": "C40", "title": "SourceMapSource answers do not depend on earlier reads", "statement": "map() and sourceAndMap() of a SourceMapSource return the same map whatever reads preceded them.", "quantifier": "for every history of reads", "why_tests_cant": "inner map is applied in place on first use and data/generator caches fill each other", "anchors": ["src/source_map_source.rs: get_data, get_generator, node, list_map"]}
{"id": "C41", "title": "Line-level concatenation keeps every item's attribution", "statement": "In the line-level map of a ConcatSource every mapped line of an item is attributed as in that item, shifted to where the item's text starts.", "quantifier": "for every list of items", "why_tests_cant": "merging of adjacent nodes and running state", "anchors": ["src/concat_source.rs: list_map", "src/source_list_map/source_list_map.rs: add"]}
{"id": "C42", "title": "List-map node counters are consistent", "statement": "The line count and the ends-with-newline flag kept by mapped list-map nodes always describe the code the node holds.", "quantifier": "for every way nodes are constructed, extended and merged", "why_tests_cant": "incrementally maintained counters over any history", "anchors": ["src/source_list_map/source_node.rs: new, add_generated_code, merge", "src/source_list_map/single_line_node.rs: new, merge"]}
{"id": "C43", "title": "The prefix function of list maps indents every line", "statement": "Rewriting a list map with the exported prefix function yields the text of the map with the prefix in front of every line, as PrefixSource does, and each piece of code is rewritten to its indented form.", "quantifier": "for every list map, every prefix and every piece of code", "why_tests_cant": "every combination of pieces, with and without final newline, and every prefix", "anchors": ["src/wasm_api/source_list_map/mapping_functions.rs:24-52", "src/source_list_map/source_list_map.rs: map_generated_code"]}
{"id": "C44", "title": "Line-level prefixing keeps the line of every character", "statement": "In the line-level map of a PrefixSource every character of the wrapped object keeps the source and line it has in the wrapped object's line-level map; only copies of the prefix are put in, one in front of every line.", "quantifier": "for every wrapped object, prefix and history", "why_tests_cant": "pieces are split, rewritten and merged again, for every sequence of nodes", "anchors": ["src/prefix_source.rs: list_map", "src/source_list_map/source_list_map.rs: map_generated_code", "src/source_list_map/single_line_node.rs: merge", "src/source_list_map/source_node.rs: merge, get_normalized_nodes"]}
{"id": "C45", "title": "Line-level replacing keeps the line of every character that stays", "statement": "In the line-level map of a ReplaceSource every character outside the replaced ranges keeps the source and line it has in the wrapped object's line-level map, and the texts of the requests stand where the ranges were (of overlapping ranges, each takes what the ones before it have left).", "quantifier": "for every wrapped object, every sequence of requests and every history", "why_tests_cant": "positions run across the pieces a list map is rewritten in, which are merged again afterwards", "anchors": ["src/replace_source.rs: list_map, ReplaceMappingFunction::map", "src/source_list_map/source_list_map.rs: map_generated_code", "src/source_list_map/single_line_node.rs: merge"]}
{"id": "C46", "title": "source() of a JavaScript program is the text its statements describe", "statement": "After any program over the JavaScript classes (constructors, add, replace, insert, reads, hashes, emitted maps and assignments to them), source() of an object returns exactly the text the statements describe, and returns at all exactly for the objects that have such a text.", "quantifier": "for every program whose replacement positions are whole or not negative, and every object", "why_tests_cant": "all interleavings of statements, shared wasm objects of equal RawSources, cached sorting and moved maps", "anchors": ["wasm-api/RawSource.js", "wasm-api/OriginalSource.js", "wasm-api/ConcatSource.js", "wasm-api/PrefixSource.js", "wasm-api/ReplaceSource.js", "wasm-api/SourceMapSource.js", "wasm-api/LineToLineMappedSource.js"]}
{"id": "C47", "title": "Emitted maps contain only strings the program supplied, in the same role", "statement": "For every program over the JavaScript classes without clear(): every string read from `sources`, `sourcesContent` or `names` of an emitted map was supplied by the program as a source name, as a content, or as a name respectively (a source may also be null); and no read stops with \"No element indexed by\". On the wasm side: if all indices in the arguments of all calls lie in given sets, so do the indices in every answer.", "quantifier": "all programs (statement lists) of any length; all emitted maps; all histories of wasm calls; all index sets", "why_tests_cant": "The strings travel as indices through generators, nodes, list maps, inner maps and re-given emitted maps; a test sees single paths, an index confusion only shows for particular table contents.", "anchors": ["wasm-api/StringCache.js", "wasm-api/utils/createStringWithSourceMap.js", "wasm-api/SourceMapSource.js", "src/source_map/source_map_generator.rs", "src/source_list_map/mappings_context.rs"]}
{"id": "C48", "title": "A property of an emitted map keeps its value", "statement": "A property of a map handed out by sourceAndMap() or map() reads the same whenever and however often it is read, until it is assigned, whatever else the program does, including giving the map to a SourceMapSource.", "quantifier": "for every program, every emitted map and every property", "why_tests_cant": "properties are computed on demand from a wasm object that other statements may move", "anchors": ["wasm-api/utils/createStringWithSourceMap.js", "wasm-api/SourceMapSource.js:13-76"]}
{"id": "C49", "title": "updateHash feeds the stream of what the object is", "statement": "updateHash of an object feeds to the hash the values, extra texts and prefixes of exactly the parts its text is made of, in order, and returns for every object that has a text.", "quantifier": "for every program and every object", "why_tests_cant": "the parts are recorded twice, in JavaScript and in wasm, and may differ after later additions", "anchors": ["wasm-api/ConcatSource.js:20-75", "wasm-api/PrefixSource.js:75-80", "wasm-api/ReplaceSource.js:104-107", "wasm-api/RawSource.js:40-42"]}
{"id": "C50", "title": "Fractional positions order insertions", "statement": "What is inserted between two characters of a ReplaceSource stands in the order of the (fractional) positions, and in call order where the positions agree.", "quantifier": "for every program, every gap and every number of insertions", "why_tests_cant": "all rational positions and all call orders", "anchors": ["wasm-api/ReplaceSource.js:16-60", "src/replace_source.rs:27-56"]}
{"id": "C51", "title": "size() of a JavaScript object is the length of source()", "statement": "size() of every JavaScript object is the length of its source() in one fixed unit.", "quantifier": "for every program and every object", "why_tests_cant": "all texts, also outside ASCII, and all ways to build an object", "anchors": ["wasm-api/RawSource.js:28-34", "wasm-api/OriginalSource.js:45-51", "wasm-api/ConcatSource.js", "wasm-api/PrefixSource.js", "wasm-api/ReplaceSource.js"]}
{"id": "C52", "title": "Each source in an emitted map comes with its own content", "statement": "In every map emitted by a program that gives a content for each source of the maps it supplies, sourcesContent has as many entries as sources, and sourcesContent[i] is a content the program supplied for sources[i] (the text of an OriginalSource for its name, the original text given for a name, or the content a given map lists for the source).", "quantifier": "for every program over the seven classes, every emitted map, every combination of nesting, given maps, inner maps and re-use of emitted maps", "why_tests_cant": "contents pass through shared hash maps, are left out silently when missing, and the lists are built independently; a mismatch needs a particular combination of objects", "anchors": ["src/source_map/source_map_generator.rs: to_source_map, set_source_content, apply_source_map_generator, from_source_map", "src/source_map/source_node.rs: walk", "src/source_list_map/mappings_context.rs: get_arrays", "src/replace_source.rs: node", "wasm-api/utils/createStringWithSourceMap.js"]}
{"id": "C53", "title": "Characters keep the origin their own source gives them through any nesting", "statement": "When a RawSource, OriginalSource, LineToLineMappedSource or SourceMapSource is nested in concatenations, prefixes and edits, in any depth and order, each of its characters that is still in the text of the whole is looked up in the map of the whole (columns on) exactly where that source's own map says the character comes from, and strings that are items of a concatenation are looked up nowhere.", "quantifier": "for every program, every object, every depth of nesting, every set of disjoint replacements", "why_tests_cant": "unbounded nesting and texts; a wrong origin needs a particular interplay of empty pieces, line starts and items", "anchors": ["src/concat_source.rs: node", "src/prefix_source.rs: node", "src/replace_source.rs: node", "src/source_map/source_node.rs: walk, to_string_with_source_map"]}
{"id": "C54", "title": "A property of an emitted pair says what was computed or assigned", "statement": "Every property of a pair handed out by sourceAndMap() reads as the corresponding part of what the wasm object computes for that object and those options at that moment, with indices replaced by the strings they stand for, until it is assigned; from then on it reads as assigned.", "quantifier": "for every program, object, pair of options, property and everything that happens in between", "why_tests_cant": "values are computed on demand, through a shared string table and caches, after arbitrary other statements", "anchors": ["wasm-api/utils/createStringWithSourceMap.js", "wasm-api/SourceAndMapMixin.js:51-73", "src/wasm_api/wasm_containers.rs:30-70"]}
{"id": "C55", "title": "A map given to a SourceMapSource is used as it reads", "statement": "When a program gives a map that sourceAndMap() or map() handed out to a SourceMapSource, as its map or as its inner map, the new object holds a map with exactly the sources, contents, names and mappings that the properties of the given map read, whatever was read, assigned or given away before.", "quantifier": "for every program, emitted map and history of reads and assignments", "why_tests_cant": "an unmodified map is moved as a wasm object and a modified one copied through its properties; all interleavings of reads and assignments", "anchors": ["wasm-api/SourceMapSource.js:13-76", "wasm-api/utils/createStringWithSourceMap.js:121-127", "src/wasm_api/source_map_source.rs:39-107"]}
{"id": "C56", "title": "A rendered list map says where each part was taken from", "statement": "When a program builds a list map with the exported SourceListMap, SourceNode, SingleLineNode, CodeNode and fromStringWithSourceMap, the pair returned by toStringWithSourceMap has as source the parts one after another, and its sources and mappings attribute every character to the file and line that the statements give for it, at any later time.", "quantifier": "for every program, list map, number and nesting of parts, and everything that happens between rendering and reading", "why_tests_cant": "all orders of additions, sharing of list maps, strings interned by unrelated statements and properties read late", "anchors": ["wasm-api/wasm-source-list-map/SourceListMap.js", "wasm-api/wasm-source-list-map/SourceNode.js", "wasm-api/wasm-source-list-map/SingleLineNode.js", "wasm-api/wasm-source-list-map/fromStringWithSourceMap.js", "src/source_list_map/source_list_map.rs"]}
{"id": "C57", "title": "Which list-map statements throw is told by the program", "statement": "A statement of the list-map classes throws exactly when it uses an object that was made from empty code or an array or whose code was rewritten, clones a node, makes a single-line node without a file, rewrites code by a replacement, or asks a RawSource for its list map; reading a well-formed map never throws.", "quantifier": "for every program and every statement after it", "why_tests_cant": "all histories of an object; exceptions come from missing bindings, null pointers and moved objects", "anchors": ["wasm-api/wasm-source-list-map/*.js", "wasm-api/build/webpack_sources.js:107-153", "src/wasm_api/wasm_containers.rs:111-141"]}
{"id": "C58", "title": "A CachedSource stands for the object it wraps", "statement": "In a program with CachedSources around any objects (also around other CachedSources, and as parts of ConcatSources, PrefixSources and ReplaceSources), every object has the text it would have with the wrapped objects in the place of the CachedSources; a text returned once by a CachedSource is returned ever after; and it is the text of the wrapped object unless that was edited in the meantime.", "quantifier": "for every program, every nesting, and all orders of source, size, map, sourceAndMap and updateHash with all options", "why_tests_cant": "all orders of reads on shared and nested CachedSources interleaved with statements that build and edit other objects", "anchors": ["wasm-api/CachedSource.js", "wasm-api/SourceAndMapMixin.js:28-49", "wasm-api/ConcatSource.js:20-58"]}
{"id": "C59", "title": "The map of a tree of source nodes attributes every character to the node it was put into", "statement": "toStringWithSourceMap() of a SourceNode gives the strings put into it and the nodes below it one after the other, and its map, read at any later time, attributes every character to the file, line and column of the innermost node it was put into; characters of a node obtained with node() of an object are attributed as sourceAndMap() of the object says. A node put into another one can not be used any more, all others can.", "quantifier": "for every program that makes nodes, gets them from objects, puts them into each other in any order and number, and renders them, between statements of all other classes", "why_tests_cant": "all shapes of trees, all orders of adding and rendering, all objects nodes are taken from", "anchors": ["wasm-api/wasm-source-map/SourceNode.js", "src/wasm_api/source_map/source_node.rs", "src/source_map/source_node.rs", "wasm-api/SourceAndMapMixin.js:8-16"]}
{"id": "C60", "title": "Emitted maps are valid when they are read", "statement": "The sources, names and mappings that an emitted map gives when its properties are read, at any later time, make a valid source map: the mappings decode, every index in them is one of sources or names, they are in the order of the text, and no file and no name is listed twice.", "quantifier": "for every program with objects of all classes and SourceNodes, every object or node a map is obtained from, with columns or without, and all statements between obtaining and reading", "why_tests_cant": "all programs that share and grow the string table, all maps given to SourceMapSources, all orders of statements", "anchors": ["wasm-api/StringCache.js", "wasm-api/utils/createStringWithSourceMap.js", "wasm-api/SourceAndMapMixin.js:28-49", "src/source_map/source_map_generator.rs", "src/source_list_map/source_list_map.rs"]}
{"id": "C61", "title": "After clear() the library works as if just loaded", "statement": "After clear(), objects and maps made from then on answer exactly what they would in a new process. Objects made before still answer what they keep themselves, what they answer is what they answered before, and the rest throws; freed memory is never used.", "quantifier": "for every program with any number of calls of clear() at any place, statements on objects and emitted maps from before and after", "why_tests_cant": "all programs before and after clear(), all ways in which old objects are used", "anchors": ["wasm-api/index.js:23-28", "wasm-api/WasmObjectPool.js", "wasm-api/StringCache.js", "wasm-api/RawSource.js:9-26", "wasm-api/OriginalSource.js:10-43"]}
{"id": "C62", "title": "Line maps of a program say what its statements say", "statement": "The map of sourceAndMap({columns: false}) of an object made by a program, whenever it is read, attributes every character to the file and line that the program's statements say: characters of an OriginalSource or LineToLineMappedSource to their line of that file, of a SourceMapSource to what the given map says, of a RawSource or string to nothing, and characters of ConcatSources, PrefixSources and ReplaceSources to what is said of the objects they are made of.", "quantifier": "for every program with objects of all classes, every object, both module settings, all statements between obtaining and reading", "why_tests_cant": "all programs, all maps given, all orders of statements that grow shared objects and the shared string table", "anchors": ["wasm-api/SourceAndMapMixin.js:28-49", "wasm-api/ConcatSource.js", "wasm-api/SourceMapSource.js", "wasm-api/utils/createStringWithSourceMap.js", "src/source_map_source.rs", "src/source_list_map/source_list_map.rs"]}
{"id": "C63", "title": "Column maps of a program say what its statements say", "statement": "The map of sourceAndMap() of an object made by a program, whenever it is read, attributes every character to the file, line, column and name that the program's statements say: characters of an OriginalSource to the start of their segment in that file, of a LineToLineMappedSource to the start of their line, of a SourceMapSource to what the given map says, looked up in the inner map where it names the object itself, of a RawSource or string to nothing, and characters of ConcatSources and PrefixSources to what is said of the objects they are made of.", "quantifier": "for every program, every object without ReplaceSource inside, all texts, maps and inner maps, all statements between obtaining and reading", "why_tests_cant": "all programs, all pairs of maps, all nestings, all orders of statements that share the string table", "anchors": ["wasm-api/SourceAndMapMixin.js:28-49", "wasm-api/SourceMapSource.js", "wasm-api/OriginalSource.js", "src/original_source.rs", "src/source_map_source.rs", "src/source_map/source_map_generator.rs", "src/source_map/source_node.rs"]}
{"id": "C64", "title": "Edited sources whose origins ascend keep file, line and column", "statement": "If the places the characters of the innermost sources come from (according to their own maps, in the order in which the sources stand in the object) never go back, then in the column map of the whole object every character that comes from one of these sources and has a place there is looked up with exactly that file, line and column, however the sources were nested, prefixed and edited.", "quantifier": "for every history of calls, every object of it with ConcatSource, PrefixSource and ReplaceSource nested at any depth, all requests, both module settings", "why_tests_cant": "all nestings and all edits, including deletions that leave empty attributed strings behind", "anchors": ["src/replace_source.rs", "src/concat_source.rs", "src/prefix_source.rs", "src/source_map/source_node.rs", "src/source_map/mapping_list.rs"]}
{"id": "C65", "title": "Column maps of a program keep the places of edited code", "statement": "In the map of sourceAndMap() of an object made by a program, ReplaceSources included, every character that was not put in by a replacement or insertion and that the statements attribute to a place is attributed to exactly that file, line and column, whenever the map is read - provided no deletion can stand directly in front of code from an earlier place (earlier: in a file the program mentions earlier, or earlier in the same file).", "quantifier": "for every program, every object of it with ConcatSource, PrefixSource and ReplaceSource nested at any depth, all requests that do not end before they begin, all texts, maps and inner maps, all statements between obtaining and reading", "why_tests_cant": "all programs and all edits; the numbers of files depend on the whole history of the shared string table", "anchors": ["wasm-api/SourceAndMapMixin.js:28-49", "wasm-api/ReplaceSource.js", "wasm-api/StringCache.js", "src/replace_source.rs", "src/source_map/source_node.rs", "src/source_map/mapping_list.rs"]}
{"id": "C66", "title": "Emitted maps given back say the same", "statement": "When the map of a sourceAndMap() pair is given to a new SourceMapSource, as its map or its inner map, whether it is moved into wasm or copied property by property, and whether its properties were read or assigned to before or not, then the maps of the resulting objects attribute characters as if the map had been given as an ordinary object with the properties as they read at that time. In particular a SourceMapSource made of the text and map of a pair attributes every character to the file, line, column and name the pair did.", "quantifier": "for every program, every pair in it and every statement that gives its map away, all reads and assignments before, all statements between obtaining and reading the later map", "why_tests_cant": "all programs, all orders of reading, assigning and giving away; the path taken (move or copy) depends on the whole history of the pair", "anchors": ["wasm-api/SourceMapSource.js:22-74", "wasm-api/createStringWithSourceMap.js", "src/wasm_api/source_map_source.rs:39-107", "src/source_map_source.rs", "src/source_map/source_map_generator.rs"]}
{"id": "C67", "title": "Line maps of a program never put code under another file", "statement": "In the map of sourceAndMap({columns: false}) of an object made by a program, every character is attributed to the file the program's statements say (that of its OriginalSource or LineToLineMappedSource, or what the map of its SourceMapSource says), whatever prefixes are put in front of the lines and whatever texts replacements (overlapping or not) put in, newlines included, and however often lines repeat.", "quantifier": "for every program, every object of it with ConcatSource, PrefixSource and ReplaceSource nested at any depth, all prefixes, all texts, all maps, all statements between obtaining and reading", "why_tests_cant": "all programs; pieces of code are merged whenever their lines happen to fit together, which depends on everything before them", "anchors": ["src/source_list_map/source_list_map.rs:115-179", "src/source_list_map/single_line_node.rs:44-75", "src/source_list_map/source_node.rs:70-110", "src/prefix_source.rs", "src/replace_source.rs", "wasm-api/SourceAndMapMixin.js:28-49"]}
{"id": "C68", "title": "Line maps of a program are off by at most one line per rewriting", "statement": "In the map of sourceAndMap({columns: false}) of an object made by a program, every character that is kept is attributed to the file the program's statements say and to the line they say or at most d lines further down, where d is the number of PrefixSources and ReplaceSources that stand one in another around it - whatever the prefixes and the texts put in by replacements (overlapping or not) are. Without PrefixSource and ReplaceSource the line is exact.", "quantifier": "for every program, every object of it with ConcatSource, PrefixSource and ReplaceSource nested at any depth, all prefixes, all texts, all maps, all statements between obtaining and reading", "why_tests_cant": "all programs; the error accumulates over nested rewritings, and depends on which pieces happen to be merged", "anchors": ["src/source_list_map/source_list_map.rs:115-179", "src/source_list_map/single_line_node.rs:44-75", "src/source_list_map/source_node.rs:70-110", "src/prefix_source.rs", "src/replace_source.rs", "wasm-api/SourceAndMapMixin.js:28-49"]}
{"id": "C69", "title": "List-map programs that take list maps of objects and rewrite them are off by at most one line per rewriting", "statement": "A JavaScript program builds sources, takes their list maps with listMap(options), builds further list maps, adds and prepends them to one another, and rewrites them with mapGeneratedCode (prefix or identity). The map that toStringWithSourceMap returns attributes every character that is kept to the file the program's statements say, and to the line they say or at most d lines further down, where d counts the rewritings one after another, those of PrefixSources and ReplaceSources included. The text is the kept characters with copies of the prefix, or lines of the prefix alone, put in.", "quantifier": "for every program over all classes, every list-map object of it, all prefixes, texts, maps and options, all statements between obtaining and reading the pair", "why_tests_cant": "all programs; list maps carry string-table indices from one object to another and the errors of rewritings add up", "anchors": ["wasm-api/wasm-source-list-map/SourceListMap.js:15-119", "wasm-api/SourceAndMapMixin.js:18-26", "src/wasm_api/source_list_map/source_list_map.rs:26-81", "src/wasm_api/source_list_map/mapping_functions.rs:3-52", "src/source_list_map/source_list_map.rs:115-179"]}
{"id": "C70", "title": "Line maps do not depend on what else the process did", "statement": "What sourceAndMap({columns: false}) hands out for an object - text, sources, contents, mappings - depends only on the objects it is made of. Two programs, or one program alone and behind another program, whose objects are made by the same statements but for object numbers hand out pairs that read alike at all times, whatever other objects, strings and maps the processes have made and read before.", "quantifier": "for all pairs of programs with corresponding objects (any correspondence that is one to one on objects that bring files along), all statements before, between and after", "why_tests_cant": "pairs of programs with different histories: string-table indices and wasm objects differ everywhere and are compared with one another when pieces are merged", "anchors": ["wasm-api/StringCache.js", "src/source_list_map/source_list_map.rs:115-179", "src/source_list_map/mappings_context.rs", "wasm-api/SourceAndMapMixin.js:28-49"]}
{"id": "C71", "title": "32-bit arithmetic", "statement": "In the arithmetic of the compiled library (32-bit usize, wrapping i32) text, node and list map of every source, and the line map written from it, are what they are with unbounded numbers, as long as given maps have generated columns and original lines below 2^31 and original columns below 2^32, replacements lie between -2^30 and 2^31-2, texts and rewritten list maps have at most 2^30 characters and nesting is at most 2^29. Outside these ranges they differ.", "quantifier": "for all sources of all kinds nested in any way, with all maps (given as data or as generators), replacements and texts within the ranges", "why_tests_cant": "the numbers that wrap are near 2^31 and 2^32 and come from map contents and positions; every combination of kinds hands them on", "anchors": ["src/source_map/source_map_generator.rs:291-316", "src/source_map/from_string_with_source_map.rs:41-95", "src/source_list_map/from_string_with_source_map.rs", "src/replace_source.rs:60-244"]}
{"id": "C72", "title": "mapGeneratedCode with the function for tests joins and splits lines", "statement": "The text of a list map after mapGeneratedCode(\"test\") is its text in which every semicolon ends a line, a line ending in a backslash is joined to the next by a space and then a line ending in a dollar sign is joined to the next without anything; mapGeneratedCode(\"identical\") keeps the text.", "quantifier": "for all list maps built by the API, all texts", "why_tests_cant": "the three replacements feed one another (a semicolon behind a backslash, a backslash behind a dollar sign) and work node by node and line by line", "anchors": ["src/wasm_api/source_list_map/mapping_functions.rs:1-17", "wasm-api/wasm-source-list-map/SourceListMap.js:61-96", "src/source_list_map/source_list_map.rs"]}
{"id": "C73", "title": "maps in programs with CachedSources show what the wrapped objects are", "statement": "The source map of any object shows for every character the file, line and column that the statements say, with CachedSources standing for what they wrap; the map a CachedSource hands out was handed out by the object it stands for at this or an earlier moment, for the same options or without options, and read at any later time it shows what the statements up to that moment say of that object, which is what they say now unless an object in it was edited since.", "quantifier": "for all programs with CachedSources in any depth, also as parts of other objects, all options and all later statements", "why_tests_cant": "which of several kept maps is handed out depends on the order of all reads of all CachedSources wrapped in one another, and the map is a shared object that later statements may use", "anchors": ["wasm-api/CachedSource.js:1-90", "wasm-api/SourceAndMapMixin.js:1-60", "wasm-api/ConcatSource.js:20-58"]}
{"id": "C74", "title": "programs that use all classes together behave as those that use some", "statement": "In a program that uses sources, CachedSources, SourceNodes and list maps together, with nodes and list maps obtained from objects and from CachedSources, source() of every object returns the text the statements describe, its map with and without columns shows for every character the origin they describe, and the maps rendered from trees of nodes and from list maps show the origins that the statements say of their parts.", "quantifier": "for all programs over all the classes in any order, all objects, nodes and list maps, and all later statements", "why_tests_cant": "all classes share one string table, one wasm heap and one list of emitted maps, so that any statement of one class could disturb objects of another; the orders of statements are unbounded", "anchors": ["wasm-api/CachedSource.js:6-25", "wasm-api/StringCache.js:1-52", "wasm-api/SourceAndMapMixin.js:1-60", "wasm-api/wasm-source-map/SourceNode.js:1-53", "wasm-api/wasm-source-list-map/SourceListMap.js:1-121"]}
{"id": "C75", "title": "the map with columns is exactly the smallest one that says what the object says", "statement": "sources and names of the pair that sourceAndMap() hands out list the files and names of the characters of the text in the order of first occurrence, each once, and mappings is the standard encoding of one segment for every place where the origin of the characters changes (lines begin without an origin) and of no other segment; so the pair depends only on what is said of the characters, not on anything else the process did.", "quantifier": "for all programs, all objects, and all later statements", "why_tests_cant": "texts, maps and histories of a process are unbounded; a redundant segment or an unused entry of sources shows in no lookup", "anchors": ["src/source_map/source_node.rs: walk, ToSourceMapContext::process_chunk, to_string_with_source_map", "src/source_map/source_map_generator.rs: add_mapping, to_source_map, serialize_mappings", "wasm-api/SourceAndMapMixin.js:28-49", "wasm-api/StringCache.js"]}
{"id": "C76", "title": "sourcesContent is exactly what was given for the files listed", "statement": "sourcesContent of the pair that sourceAndMap() hands out has, for each file of sources in turn, the first content that the parts of the object give for this file (OriginalSource: its text; LineToLineMappedSource: the original text; SourceMapSource: the contents of the map, then a nonempty originalSource, then the contents of the inner map); files without one are left out, and the property is undefined if none has one. So it is parallel to sources exactly if every listed file has a content.", "quantifier": "for all programs, all objects, and all later statements", "why_tests_cant": "which of several contents of a file counts depends on unbounded nestings and histories; tests have one content per file", "anchors": ["src/source_map/source_map_generator.rs:61-65,241-290", "src/source_map_source.rs:150-200", "src/source_map/source_node.rs:53-56", "wasm-api/SourceAndMapMixin.js:28-49"]}
{"id": "C77", "title": "Texts come out of the library as they went in", "statement": "A JavaScript string handed to wasm by passStringToWasm and read back by getStringFromWasm is the same string; so source() of every object, the source of every pair that sourceAndMap() returns and the chunks given to hash.update are the texts that the statements describe, and mappings is read as it was written.", "quantifier": "for all strings of UTF-16 units; for all programs, all objects and all pairs", "why_tests_cant": "strings are unbounded; the tests use texts without surrogates and byte order marks", "anchors": ["wasm-api/build/webpack_sources.js:4-32,543-557,722-736,804-818,1551-1565", "wasm-api/SourceAndMapMixin.js:5-49", "wasm-api/utils/createStringWithSourceMap.js:45-97"]}
{"id": "C78", "title": "A pair made a source again gives the same pair", "statement": "If the text and the map of a pair with columns are given to a new SourceMapSource, sourceAndMap() of that reads source, sources, sourcesContent, names and mappings exactly as those of the pair did, and so on however often this is repeated. For any well-formed pair that attributes its characters, the first such round gives the smallest map that says the same, and further rounds change nothing.", "quantifier": "all programs over the JavaScript API without inner maps beside emitted ones and with well-formed maps, all objects without ReplaceSource and empty strings in them (or any pair whose map is well-formed, also after assignments), all numbers of rounds, all further statements between the rounds that do not give or assign to the pair", "why_tests_cant": "tests make one SourceMapSource from one literal map; whether reading, re-serializing, interning and the reuse of the generator object drift after many rounds depends on the whole history", "anchors": ["wasm-api/SourceMapSource.js:22-51", "wasm-api/utils/createStringWithSourceMap.js:45-140", "src/source_map_source.rs:49-73,172-186", "src/source_map/source_map_generator.rs", "src/source_map/from_string_with_source_map.rs:6-123"]}
{"id": "C79", "title": "Maps that are not well-formed: which are read, and how", "statement": "Reading code and any mappings string into a list map succeeds if and only if every segment, in the lines that the code has, begins with VLQ numbers as far as it is looked at: up to three numbers; what follows the third is skipped, and so are mapping lines after the last line of code. If read, line i goes with the sums, over all segments so far, of the second and third numbers at its first segment that has two or more numbers, both taken modulo 2^32. An index with no source gives source -1, and a later segment can lead back to a source. Blank lines without such a segment continue the line before. The rendered map says the same if no line number is 0.", "quantifier": "for every code text, every sources array and every mappings string, of any characters", "why_tests_cant": "tests read well-formed maps; wrapping of negative indices and recovery from them depend on all deltas before", "anchors": ["src/source_list_map/from_string_with_source_map.rs:6-153"]}
{"id": "C80", "title": "A generator refuses exactly the mappings that are not of the format, and writes exactly when it can", "statement": "A source map generator made to validate traps on adding exactly those mappings with a line 0, with a source or an original position but not both, or with a name without them; one made to skip validation takes every mapping. Writing the map succeeds if and only if no mapping has generated line 0 or a source without an original position. So a validating generator always writes what it took.", "quantifier": "for every list of mappings added, in any order, with and without validation", "why_tests_cant": "the code always skips validation, so no test reaches it; whether writing traps depends on all mappings and their order", "anchors": ["src/source_map/source_map_generator.rs:50-59,94-170"]}
{"id": "C81", "title": "Which column maps are read, for any mappings string", "statement": "The mappings string of a source map is read into a generator if and only if, after a comma is put in behind every fifth number of a segment, it decodes into segments of one, four or five numbers whose absolute values all fit in 32 bits and whose indices lie inside the arrays of sources and names without repetitions. It is then read exactly as the string with those commas.", "quantifier": "for every string of characters and all arrays of sources, contents and names", "why_tests_cant": "tests give strings a tool wrote; segments without separators, sums leaving 32 bits or indices beyond deduplicated arrays occur in none", "anchors": ["src/source_map/source_map_generator.rs:253-318", "source_map_mappings crate: parse_mappings"]}
{"id": "C82", "title": "free() of a source does not affect anything else", "statement": "Calling free() on a source does not change what any other statement of a program returns: objects built from the freed source, maps it emitted and objects that are not freed answer as without the call. The freed source still answers source() and size() if its class keeps the text itself, every other use of it throws, and memory that was freed is never read.", "quantifier": "for every program over the JavaScript classes with any number of calls of free()", "why_tests_cant": "no test calls free(); which objects share a wasm object depends on equal texts made anywhere in the program", "anchors": ["wasm-api/build/webpack_sources.js:164-168", "wasm-api/RawSource.js:10-25", "wasm-api/ReplaceSource.js:104-107", "wasm-api/WasmObjectPool.js:12-13"]}
{"id": "C83", "title": "changing an array of an emitted map in place works as assigning it", "statement": "When a program changes an array of an emitted map in place (map.sources[0] = 'x', map.names.push('y')), every statement returns what it returns when the changed array is assigned to the property instead: the property reads the new entries and a SourceMapSource made from the map uses them.", "quantifier": "for every program over the JavaScript classes with any number of such changes", "why_tests_cant": "no test changes an array in place; whether a change is used depends on whether any property of the same map was assigned before and whether the map was given before", "anchors": ["wasm-api/utils/createStringWithSourceMap.js:37-43", "wasm-api/utils/createStringWithSourceMap.js:50-128", "wasm-api/SourceMapSource.js:25-46"]}
{"id": "C84", "title": "maps of edited code invent nothing", "statement": "Whatever replace(), insert() and deletion requests the ReplaceSources in an object hold (overlapping, ending before they begin, beyond the end), the map of sourceAndMap() with columns has only segments with the file, line and column of a character of the unedited code and with that character's name or none, and lists only files and names of characters of the unedited code.", "quantifier": "for every program over the JavaScript classes, every object, all requests", "why_tests_cant": "the tests edit with a few orderly requests; the segments left by deleted code, by split nodes and by the lookup that places inserted text depend on the whole tree", "anchors": ["src/replace_source.rs", "src/source_map/source_node.rs", "src/source_map/source_map_generator.rs", "wasm-api/SourceAndMapMixin.js:28-49", "wasm-api/ReplaceSource.js"]}
{"id": "C85", "title": "segments lie in the text", "statement": "The position of every segment of an emitted map is a position of the text of the same pair: in maps with columns that of a character or that behind the last one, in maps without columns that of a character.", "quantifier": "for every program over the JavaScript classes (source nodes included), every object and every later moment", "why_tests_cant": "the position of a segment depends on all text rendered before it; the tests compare a few ASCII texts", "anchors": ["src/source_map/source_node.rs:164-220", "src/source_list_map/source_node.rs:89-136", "src/source_list_map/single_line_node.rs:89-133", "src/source_list_map/code_node.rs:41-65", "src/source_list_map/mappings_context.rs"]}
{"id": "C86", "title": "wrapping without change changes nothing", "statement": "A PrefixSource with an empty prefix, a ReplaceSource without requests, and the way items are grouped into ConcatSources, anywhere in an object, make no difference: source() and every property of the pair of sourceAndMap() are the same with and without them. Nor does it matter whether a prefix is put on at once or in two parts, provided the inner part has no newline; whether a text is given as a string or as a RawSource (unless empty); nor where texts next to each other are divided, provided no part but the first is empty.", "quantifier": "for every program over the JavaScript classes and any two objects that consist of the same parts apart from such wrappers, groupings and divisions of prefixes and texts, in any depth, also inside prefixed and edited code", "why_tests_cant": "wrappers nest arbitrarily, and the code splits, clones and renders node trees of different shapes", "anchors": ["src/prefix_source.rs:26-96", "src/replace_source.rs:103-154", "src/replace_source.rs:247-323", "src/concat_source.rs:46-78", "src/source_map/source_node.rs:99-220"]}
{"id": "C87", "title": "line maps settle after one reading", "statement": "If a text with a source map is read into a list map (fromStringWithSourceMap) and rendered (to_string_with_source_map), then the text is unchanged, the rendered map can be read again, and reading and rendering it again gives the very same pair: text, files, contents and mappings.", "quantifier": "for every text, every list of files and contents and every mappings string that can be read at all, also with files that are missing, sums below 0, segments cut short and any number of lines", "why_tests_cant": "the mappings string is written with differences against the state left by the node before, and the reader merges lines into nodes by its own state; the two have to agree for every sequence of lines", "anchors": ["src/source_list_map/from_string_with_source_map.rs:6-153", "src/source_list_map/source_list_map.rs:191-233", "src/source_list_map/source_node.rs:89-136", "src/source_list_map/code_node.rs:41-65", "src/source_list_map/mappings_context.rs:14-55"]}
{"id": "C88", "title": "line pairs given back settle", "statement": "If a text with an ordinary source map object, or the text and map of a line pair handed out for any object, is made a SourceMapSource, and its pair for lines (sourceAndMap({columns: false})) is handed out, then making that pair's text and map a SourceMapSource again and asking for its pair for lines raises no exception, and everything that reads of the first pair (source, sources, sourcesContent, mappings, names) reads the same of the new one, after any number of such rounds and whatever else happens in between.", "quantifier": "for every state of the program, every text, every map whose mappings can be read, any number of rounds, any statements between them that do not give away or assign to the last pair", "why_tests_cant": "between the rounds the map is moved through wasm memory with the numbers of its strings while the string table grows; equality has to hold for every state and every number of rounds", "anchors": ["wasm-api/SourceMapSource.js:15-80", "wasm-api/utils/createStringWithSourceMap.js:35-143", "wasm-api/SourceAndMapMixin.js:28-73", "src/source_map_source.rs:188-204", "src/source_list_map/from_string_with_source_map.rs:6-153"]}
