import Verif.Model.SmNode
import Verif.Model.JsList
import Verif.Model.JsWorld
/-! # More tests of the model against the fixtures of the repository

The Rust tests of `tests/source_map.rs` and the remaining JavaScript tests of
`test-js/source-list-map`. These are tests, not proofs: they compare the model with expected values
written in `/repo`. -/

namespace WS.Tests

/-- The string cache of the tests, `tests/source_map_utils/string_cache.rs`, with the strings added
beforehand in a fixed order: the number of a string is its place. -/
def ids : List String :=
  ["a.js", "b.js", "c.js", "foo.js", "A", "someContent", "otherContent", "fileX", "fileY", "fileA",
   "fileB", "fileGen", "X", "B", "test.js.min", "test.js", "test.coffee", "foo", "coffee$foo",
   "bundled-source", "transformed-source", "original-source"]

/-- Number of a string. -/
def idOf (s : String) : Int := ids.idxOf s

/-- `add_sources`, `tests/source_map_utils/traits.rs:14-38`: a negative line is a plain string. -/
def addSources (children : List SmNode) (l : List (Int × Nat × String × String × Option String)) :
    List SmNode :=
  l.foldl (fun ch p => match p with
    | (line, col, source, chunk, name) =>
      if 0 ≤ line then
        ch ++ [SmNode.mkStr (some (line.toNat, col)) (some (idOf source)) (name.map idOf) chunk.toList]
      else addStrChild ch chunk.toList) children

/-- `add_mappings`, `tests/source_map_utils/traits.rs:48-74`. -/
def addMappings (g : Generator)
    (l : List (Nat × Nat × Option String × Option (Nat × Nat) × Option String)) : Generator :=
  l.foldl (fun g p => match p with
    | (line, col, source, original, name) =>
      g.addMapping { generated := (line, col), source := source.map idOf, original,
                     name := name.map idOf }) g

/-- The map of a generator (test helper). -/
def mapOf (g : Generator) : Option SourceMap :=
  match g.toSourceMap with
  | .ok (m, _) => some m
  | .error _ => none

/-- Text and map of a node (test helper). -/
def nodeMap (n : SmNode) (file : Option Int) : Option (String × SourceMap) :=
  match n.toStringWithSourceMap file none with
  | .ok r => some (String.ofList r.source, r.map)
  | .error _ => none

/-! ## `to_string_with_source_map`, `tests/source_map.rs:12-228` -/

/-- `merging_duplicate_mappings`, `tests/source_map.rs:17-35`. -/
def mergingNode : SmNode := .node none none none [] <| addSources []
  [(1, 0, "a.js", "(function", none), (1, 0, "a.js", "() {\n", none), (-1, 0, "", "  ", none),
   (1, 0, "a.js", "var Test = ", none), (1, 0, "b.js", "{};\n", none), (2, 0, "b.js", "Test", none),
   (2, 0, "b.js", ".A", some "A"), (2, 20, "b.js", " = { value: ", some "A"),
   (-1, 0, "", "1234", none), (2, 40, "b.js", " };\n", some "A"), (-1, 0, "", "}());\n", none),
   (-1, 0, "", "/* Generated Source */", none)]

/-- `merging_duplicate_mappings`, `tests/source_map.rs:51-64`. -/
def mergingMap : Generator := addMappings (Generator.new (some (idOf "foo.js")) none false)
  [(1, 0, some "a.js", some (1, 0), none), (2, 2, some "a.js", some (1, 0), none),
   (2, 13, some "b.js", some (1, 0), none), (3, 0, some "b.js", some (2, 0), none),
   (3, 4, some "b.js", some (2, 0), some "A"), (3, 6, some "b.js", some (2, 20), some "A"),
   (3, 18, none, none, none), (3, 22, some "b.js", some (2, 40), some "A")]

example : (nodeMap mergingNode (some (idOf "foo.js"))).map Prod.fst = some
    "(function() {\n  var Test = {};\nTest.A = { value: 1234 };\n}());\n/* Generated Source */" := by
  decide +kernel
example : (nodeMap mergingNode (some (idOf "foo.js"))).map Prod.snd = mapOf mergingMap := by
  decide +kernel
example : (mapOf mergingMap).map (fun m => String.ofList m.mappings) =
    some "AAAA;EAAA,WCAA;AACA,IAAAA,EAAoBA,Y,IAAoBA" := by decide +kernel

/-- `multi_line_source_nodes`, `tests/source_map.rs:77-97`. -/
def multiNode : SmNode := .node none none none [] <| addSources []
  [(1, 0, "a.js", "(function() {\nvar nextLine = 1;\nanotherLine();\n", none),
   (2, 2, "b.js", "Test.call(this, 123);\n", none), (2, 2, "b.js", "this['stuff'] = 'v';\n", none),
   (2, 2, "b.js", "anotherLine();\n", none), (-1, 0, "", "/*\nGenerated\nSource\n*/\n", none),
   (3, 4, "c.js", "anotherLine();\n", none), (-1, 0, "", "/*\nGenerated\nSource\n*/", none)]

/-- `multi_line_source_nodes`, `tests/source_map.rs:121-134`. -/
def multiMap : Generator := addMappings (Generator.new (some (idOf "foo.js")) none false)
  [(1, 0, some "a.js", some (1, 0), none), (2, 0, some "a.js", some (1, 0), none),
   (3, 0, some "a.js", some (1, 0), none), (4, 0, some "b.js", some (2, 2), none),
   (5, 0, some "b.js", some (2, 2), none), (6, 0, some "b.js", some (2, 2), none),
   (11, 0, some "c.js", some (3, 4), none)]

example : (nodeMap multiNode (some (idOf "foo.js"))).map Prod.snd = mapOf multiMap := by
  decide +kernel
example : (nodeMap multiNode (some (idOf "foo.js"))).map
      (fun p => (p.1, String.ofList p.2.mappings)) = some
    ("(function() {\nvar nextLine = 1;\nanotherLine();\nTest.call(this, 123);\nthis['stuff'] = 'v';\nanotherLine();\n/*\nGenerated\nSource\n*/\nanotherLine();\n/*\nGenerated\nSource\n*/",
     "AAAA;AAAA;AAAA;ACCE;AAAA;AAAA;;;;;ACCE") := by decide +kernel

-- `with_empty_string`, `tests/source_map.rs:141-151`
example : (nodeMap (SmNode.mkStr (some (1, 0)) (some 0) none []) none).map Prod.fst = some "" := by
  decide +kernel

/-- `with_consecutive_newlines`, `tests/source_map.rs:154-165`. -/
def newlinesNode : SmNode := .node none none none [] <| addSources []
  [(-1, 0, "", "/***/\n\n", none), (1, 0, "a.js", "'use strict';\n", none),
   (2, 0, "a.js", "a();", none)]

example : (nodeMap newlinesNode (some (idOf "foo.js"))).map Prod.snd =
    mapOf (addMappings (Generator.new (some (idOf "foo.js")) none false)
      [(3, 0, some "a.js", some (1, 0), none), (4, 0, some "a.js", some (2, 0), none)]) := by
  decide +kernel
example : (nodeMap newlinesNode (some (idOf "foo.js"))).map
      (fun p => (p.1, String.ofList p.2.mappings)) =
    some ("/***/\n\n'use strict';\na();", ";;AAAA;AACA") := by decide +kernel

/-- `with_set_source_content`, `tests/source_map.rs:188-218`. `set_source_content` of a node is an
entry of its table, `source_node.rs:53-55`. -/
def contentNode : SmNode :=
  .node none none none [(idOf "b.js", idOf "otherContent")] <| addSources
    (addSources [] [(-1, 0, "", "(function () {\n", none), (-1, 0, "", "  ", none)] ++
      [.node (some (1, 1)) (some (idOf "a.js")) none [(idOf "a.js", idOf "someContent")]
        [.str ['a']]])
    [(-1, 0, "", "  ", none), (1, 1, "b.js", "b", none), (-1, 0, "", "}());", none)]

example : (nodeMap contentNode (some (idOf "foo.js"))).map
      (fun p => (p.2.sources, p.2.sourcesContent, String.ofList p.2.mappings)) =
    some ([idOf "a.js", idOf "b.js"], [idOf "someContent", idOf "otherContent"],
      ";EAAC,C,ECAA,C") := by decide +kernel

/-! ## `from_source_map`, `tests/source_map.rs:230-289` -/

/-- A source map read and written again, `tests/source_map_utils/macros.rs:31-65`. -/
def reread (m : SourceMap) : Option SourceMap :=
  match Generator.fromSourceMap m.sources m.sourcesContent m.mappings m.names m.file m.sourceRoot
      true with
  | .ok g => mapOf g
  | .error _ => none

/-- The map of the tests: file 0, the names, sources and contents numbered from 1 on. -/
def testMap (names sources contents : List Int) (mappings : String) : SourceMap :=
  { version := 3, file := some 0, sourceRoot := none, sources, sourcesContent := contents, names,
    mappings := mappings.toList }

/-- The mappings of `tests/source_map.rs:241,254`. -/
def twoSources : String :=
  "CAAC,IAAI,IAAM,SAAUA,GAClB,OAAOC,IAAID;CCDb,IAAI,IAAM,SAAUE,GAClB,OAAOA"

/-- The mappings of `tests/source_map.rs:264,287`. -/
def oneSource : String := "CAAC,IAAI,IAAM,SAAUA,GAClB,OAAOC,IAAID"

example : reread (testMap [1, 2, 3] [4, 5] [] twoSources) =
    some (testMap [1, 2, 3] [4, 5] [] twoSources) := by decide +kernel
example : reread (testMap [1, 2, 3] [4, 5] [6, 7] twoSources) =
    some (testMap [1, 2, 3] [4, 5] [6, 7] twoSources) := by decide +kernel
example : reread (testMap [1, 2] [3] [] oneSource) = some (testMap [1, 2] [3] [] oneSource) := by
  decide +kernel
example : reread (testMap [] [1, 2] [3, 4] "") = some (testMap [] [1, 2] [3, 4] "") := by
  decide +kernel
example : reread (testMap [1, 2] [3, 4] [] oneSource) =
    some (testMap [1, 2] [3, 4] [] oneSource) := by decide +kernel

/-! ## `apply_source_map`, `tests/source_map.rs:291-513` -/

/-- Apply one generator to another and write the map (test helper). -/
def applied (outer inner : Generator) : Option SourceMap :=
  match outer.applySourceMap inner none with
  | .ok (g, _) => mapOf g
  | .error _ => none

/-- `map_step1_generator`, `tests/source_map.rs:300-320`. -/
def step1 : Generator :=
  ((SmNode.node none none none [] <| addSources []
    [(2, 0, "fileX", "lineX2\n", none), (-1, 0, "", "genA1\n", none),
     (2, 0, "fileY", "lineY2\n", none), (-1, 0, "", "genA2\n", none),
     (1, 0, "fileX", "lineX1\n", none), (-1, 0, "", "genA3\n", none),
     (1, 0, "fileY", "lineY1\n", none)]).toStringWithGenerator (some (idOf "fileA")) none).2
  |>.setSourceContent (idOf "fileX") (some (idOf "X"))

/-- `map_step2_generator`, `tests/source_map.rs:323-343`. -/
def step2 : Generator :=
  ((SmNode.node none none none [] <| addSources []
    [(-1, 0, "", "gen1\n", none), (1, 0, "fileA", "lineA1\n", none),
     (2, 0, "fileA", "lineA2\n", none), (3, 0, "fileA", "lineA3\n", none),
     (4, 0, "fileA", "lineA4\n", none), (1, 0, "fileB", "lineB1\n", none),
     (2, 0, "fileB", "lineB2\n", none), (-1, 0, "", "gen2\n", none)]).toStringWithGenerator
    (some (idOf "fileGen")) none).2
  |>.setSourceContent (idOf "fileB") (some (idOf "B"))

/-- `expected_map`, `tests/source_map.rs:346-371`. -/
def stepExpected : Generator :=
  ((SmNode.node none none none [] <| addSources []
    [(-1, 0, "", "gen1\n", none), (2, 0, "fileX", "lineA1\n", none),
     (2, 0, "fileA", "lineA2\n", none), (2, 0, "fileY", "lineA3\n", none),
     (4, 0, "fileA", "lineA4\n", none), (1, 0, "fileB", "lineB1\n", none),
     (2, 0, "fileB", "lineB2\n", none), (-1, 0, "", "gen2\n", none)]).toStringWithGenerator
    (some (idOf "fileGen")) none).2
  |>.setSourceContent (idOf "fileX") (some (idOf "X"))
  |>.setSourceContent (idOf "fileB") (some (idOf "B"))

-- `tests/source_map.rs:373-375`
example : (mapOf stepExpected).isSome ∧ applied step2 step1 = mapOf stepExpected := by
  decide +kernel

/-- A generator made from the map of another, `tests/source_map.rs:378-379`. -/
def viaMap (g : Generator) : Option Generator :=
  match mapOf g with
  | none => none
  | some m =>
    match Generator.fromSourceMap m.sources m.sourcesContent m.mappings m.names m.file m.sourceRoot
        true with
    | .ok g => some g
    | .error _ => none

-- `tests/source_map.rs:380-384`
example : (viaMap step1).bind mapOf = mapOf step1 ∧ (viaMap step2).bind mapOf = mapOf step2 := by
  decide +kernel
example : ((viaMap step2).bind fun a => (viaMap step1).bind fun b => applied a b) =
    mapOf stepExpected := by decide +kernel

-- `panic_when_file_is_missing`, `tests/source_map.rs:384-392`
example : applied (Generator.new (some 0) none true) (Generator.new none none true) = none := by
  decide +kernel

/-- `assert_name`, `tests/source_map.rs:396-418`: the names of the result. -/
def namesAfter (coffee js : Option String) : Option (List (Option Int)) :=
  match (addMappings (Generator.new (some (idOf "test.js.min")) none true)
      [(1, 4, some "test.js", some (1, 4), js)]).applySourceMap
      (addMappings (Generator.new (some (idOf "test.js")) none true)
        [(1, 4, some "test.coffee", some (1, 0), coffee)]) none with
  | .ok (g, _) => some (g.mappings.list.map (·.name))
  | .error _ => none

-- `tests/source_map.rs:419-440`
example : namesAfter none (some "foo") = some [some (idOf "foo")] := by decide +kernel
example : namesAfter (some "foo") (some "coffee$foo") = some [some (idOf "foo")] := by
  decide +kernel
example : namesAfter (some "foo") none = some [some (idOf "foo")] := by decide +kernel
example : namesAfter none none = some [none] := by decide +kernel

-- `with_unexact_match`, `tests/source_map.rs:443-474`
example : applied
    (addMappings (Generator.new (some (idOf "bundled-source")) none true)
      [(1, 4, some "transformed-source", some (1, 4), none),
       (2, 4, some "transformed-source", some (2, 4), none)])
    (addMappings (Generator.new (some (idOf "transformed-source")) none true)
      [(2, 0, some "original-source", some (1, 0), none)]) =
    mapOf (addMappings (Generator.new (some (idOf "bundled-source")) none true)
      [(1, 4, some "transformed-source", some (1, 4), none),
       (2, 4, some "original-source", some (1, 0), none)]) := by decide +kernel

-- `with_empty_mappings`, `tests/source_map.rs:476-498`
example : ((Generator.fromSourceMap [1, 2] [3, 4] [] [] (some 0) none true).toOption.bind
      fun g => applied g g) = some (testMap [] [1, 2] [3, 4] "") := by decide +kernel

-- `mappings_with_same_generated_but_different_original_positions`, `tests/source_map.rs:500-511`
example : (addMappings (Generator.new none none true)
    [(1, 10, some "a.js", some (1, 10), none), (1, 10, some "b.js", some (2, 20), none)]).mappings.list.length
      = 2 := by decide +kernel

/-! ## `test-js/source-list-map/MappingGeneration.js` -/

/-- `MappingGeneration.js:8-13`: source 1 with content 2. -/
def genMap : Slm :=
  let m := slmAddStr [] "Gen\nCode ".toList none none
  let m := slmAddStr m "Source\nCode\n".toList (some 1) (some 2)
  let m := slmAddStr m "Gen ".toList none none
  let m := slmAddStr m "Code ".toList none none
  slmAddStr m "Source\nCode".toList (some 1) (some 2)

-- `MappingGeneration.js:14-19`
example : (String.ofList (slmToStringWithSourceMap genMap none).source,
    (slmToStringWithSourceMap genMap none).map.sourcesContent.head?,
    String.ofList (slmToStringWithSourceMap genMap none).map.mappings) =
    ("Gen\nCode Source\nCode\nGen Code Source\nCode", some 2, ";A,KAAA;AACA;A,SADA;AACA") := by
  decide +kernel

/-- `MappingGeneration.js:22-29` from a first node on. -/
def afterNode (n : LNode) : Slm :=
  slmAddStr (slmAddStr [n] "\n\n".toList none none) "Source Code\n".toList (some 1) (some 2)

-- `MappingGeneration.js:30-32`
example : slmToStringWithSourceMap
      (afterNode (.single (LSingle.new "abc".toList (some 3) (some 4) 10))) none =
    slmToStringWithSourceMap
      (afterNode (.source (LSource.new "abc".toList (some 3) (some 4) 10))) none := by
  decide +kernel

/-! ## `test-js/source-list-map/mapGeneratedCode.js` -/

/-- The text of `mapGeneratedCode.js:7-24`. -/
def generatedText : String :=
  "Normal Line 1\nNormal Line 2\n$\nNormal Line 3\nLine A;Line B;Line C\nLine A;Line B;Line C\nNo\\\nNew\\\nLine 1\nNo\\\n$\nNew\\\n$\n$\nLine 2\nEnd Line"

/-- `mapGeneratedCode.js:25-28`: source 1; the content with the final newline is 2, without 3. -/
def generatedMap : Slm :=
  let m := slmAddStr [] (generatedText ++ "\n").toList (some 1) (some 2)
  let m := slmAddStr m (generatedText ++ "\n").toList (some 1) (some 2)
  let m := slmAddStr m (generatedText ++ "\n").toList none none
  slmAddStr m generatedText.toList (some 1) (some 3)

/-- `expectedPart`, `mapGeneratedCode.js:31-43`. -/
def expectedPart : String :=
  "AACA;AAEA;AACA;AAAA;AAAA;AACA;AAAA;AAAA;AACA,GACA,IACA;AACA,GAEA,IAGA;AACA"

/-- The list map after the test function. -/
def generatedResult : StringWithSourceMap :=
  slmToStringWithSourceMap (slmMapGenerated (fun (_ : Unit) s => (wasmTest s, ())) () generatedMap).1 none

-- `mapGeneratedCode.js:44-54`
example : String.ofList generatedResult.map.mappings =
    "AAAA;" ++ expectedPart ++ ";AAfA;" ++ expectedPart ++ ";;;;;;;;;;;;;AAfA;" ++ expectedPart := by
  decide +kernel

/-- The text expected by `mapGeneratedCode.js:55-61` for one copy. -/
def generatedExpected : String :=
  "Normal Line 1\nNormal Line 2\nNormal Line 3\nLine A\nLine B\nLine C\nLine A\nLine B\nLine C\nNo New Line 1\nNo New Line 2\nEnd Line"

example : String.ofList generatedResult.source =
    generatedExpected ++ "\n" ++ generatedExpected ++ "\n" ++ generatedExpected ++ "\n" ++
      generatedExpected := by decide +kernel

/-! ## The JavaScript tests of `test-js`, as programs of the JavaScript layer -/

/-- The answers of a program, nothing if a statement throws (test helper). -/
def answers : World → List JOp → Option (List JAnswer)
  | _, [] => some []
  | w, op :: ops =>
    match op.run w with
    | .error _ => none
    | .ok (a, w) => (answers w ops).map (a :: ·)

/-- The getters of an emitted pair, in a fixed order (test helper). -/
def fields (k : Nat) : List JOp :=
  [.get k .source, .get k .mappings, .get k .sources, .get k .contents, .get k .names]

/-- The values of `fields` (test helper). -/
def fieldVals (source mappings : String) (sources contents : List String) (names : JFieldVal) :
    List JAnswer :=
  [.field (.text source.toList), .field (.text mappings.toList),
   .field (.list (sources.map fun s => some s.toList)),
   .field (.list (contents.map fun s => some s.toList)), .field names]

-- `test-js/ConcatSource.js:7-64`
set_option synthInstance.maxSize 1000 in
example : (answers World.empty <|
      [.newRaw "Hello World\n".toList,
       .newOriginal "console.log('test');\nconsole.log('test2');\n".toList "console.js".toList,
       .newConcat [.obj 0, .obj 1], .newOriginal "Hello2\n".toList "hello.md".toList,
       .add 2 (.obj 3), .size 2, .source 2, .sourceAndMap 2 false true,
       .sourceAndMap 2 true true] ++ fields 0 ++ fields 1).map (·.drop 5) =
    some ([.size 62,
      .text "Hello World\nconsole.log('test');\nconsole.log('test2');\nHello2\n".toList,
      .pair 0, .pair 1] ++
      fieldVals "Hello World\nconsole.log('test');\nconsole.log('test2');\nHello2\n"
        ";AAAA;AACA;ACDA;" ["console.js", "hello.md"]
        ["console.log('test');\nconsole.log('test2');\n", "Hello2\n"] .undefined ++
      fieldVals "Hello World\nconsole.log('test');\nconsole.log('test2');\nHello2\n"
        ";AAAA;AACA;ACDA" ["console.js", "hello.md"]
        ["console.log('test');\nconsole.log('test2');\n", "Hello2\n"] (.list [])) := by
  decide +kernel

-- `test-js/ConcatSource.js:66-111`. The digest expected at line 109 is SHA-256 of the text below.
set_option synthInstance.maxSize 1000 in
example : (answers World.empty <|
      [.newRaw "Hello World\n".toList,
       .newOriginal "console.log('test');\nconsole.log('test2');\n".toList "console.js".toList,
       .newConcat [.obj 0, .obj 1], .add 2 (.str "console.log('string')".toList), .size 2, .source 2,
       .sourceAndMap 2 false true, .hash 2] ++ fields 0).map (·.drop 4) =
    some ([.size 76,
      .text "Hello World\nconsole.log('test');\nconsole.log('test2');\nconsole.log('string')".toList,
      .pair 0,
      .chunks ["Hello World\n".toList, "console.log('test');\nconsole.log('test2');\n".toList,
        "console.log('string')".toList]] ++
      fieldVals "Hello World\nconsole.log('test');\nconsole.log('test2');\nconsole.log('string')"
        ";AAAA;AACA;A" ["console.js"] ["console.log('test');\nconsole.log('test2');\n"]
        .undefined) := by
  decide +kernel

-- `test-js/PrefixSource.js:8-62`
set_option synthInstance.maxSize 1000 in
example : (answers World.empty <|
      [.newOriginal
        "console.log('test');console.log('test2');\nconsole.log('test22');\n".toList
        "console.js".toList,
       .newPrefix "\t".toList (.obj 0), .size 1, .source 1, .sourceAndMap 1 false true,
       .sourceAndMap 1 true true] ++ fields 0 ++ fields 1).map (·.drop 2) =
    some ([.size 67,
      .text "\tconsole.log('test');console.log('test2');\n\tconsole.log('test22');\n".toList,
      .pair 0, .pair 1] ++
      fieldVals "\tconsole.log('test');console.log('test2');\n\tconsole.log('test22');\n"
        "AAAA;AACA;" ["console.js"]
        ["console.log('test');console.log('test2');\nconsole.log('test22');\n"] .undefined ++
      fieldVals "\tconsole.log('test');console.log('test2');\n\tconsole.log('test22');\n"
        "AAAA,qBAAoB;AACpB" ["console.js"]
        ["console.log('test');console.log('test2');\nconsole.log('test22');\n"] (.list [])) := by
  decide +kernel

-- `test-js/ReplaceSource.js:7-62`
set_option synthInstance.maxSize 1000 in
example : (answers World.empty <|
      [.newOriginal "Hello World!\n{}\nLine 3\nLine 4\nLine 5\nLast\nLine".toList
        "file.txt".toList,
       .newReplace (.obj 0), .replace 1 16 36 [], .replace 1 1 4 "i ".toList,
       .replace 1 1 4 "bye".toList, .replace 1 7 7 "0000".toList,
       .insert 1 14 "\n Multi Line\n".toList, .replace 1 41 41 " ".toList, .source 1,
       .sourceAndMap 1 false true, .sourceAndMap 1 true true] ++ fields 0 ++
       [.get 1 .source, .get 1 .sources, .get 1 .contents]).map (·.drop 8) =
    some ([.text "Hi bye W0000rld!\n{\n Multi Line\n}\nLast Line".toList, .pair 0, .pair 1] ++
      fieldVals "Hi bye W0000rld!\n{\n Multi Line\n}\nLast Line" "AAAA;AACA;AAAA;AAAA;AAIA,KACA"
        ["file.txt"] ["Hello World!\n{}\nLine 3\nLine 4\nLine 5\nLast\nLine"] .undefined ++
      [.field (.text "Hi bye W0000rld!\n{\n Multi Line\n}\nLast Line".toList),
       .field (.list [some "file.txt".toList]),
       .field (.list [some "Hello World!\n{}\nLine 3\nLine 4\nLine 5\nLast\nLine".toList])]) := by
  decide +kernel

-- `test-js/ReplaceSource.js:64-93`
set_option synthInstance.maxSize 1000 in
example : (answers World.empty <|
      [.newOriginal "Hello\nWorld!".toList "file.txt".toList,
       .newReplace (.obj 0), .insert 1 0 "Message: ".toList, .replace 1 2 9 "y A".toList, .source 1,
       .sourceAndMap 1 false true, .sourceAndMap 1 true true] ++ fields 0 ++
       [.get 1 .source, .get 1 .sources, .get 1 .contents]).map (·.drop 4) =
    some ([.text "Message: Hey Ad!".toList, .pair 0, .pair 1] ++
      fieldVals "Message: Hey Ad!" "AAAA,cACA" ["file.txt"] ["Hello\nWorld!"] .undefined ++
      [.field (.text "Message: Hey Ad!".toList), .field (.list [some "file.txt".toList]),
       .field (.list [some "Hello\nWorld!".toList])]) := by
  decide +kernel

/-! ## `test-js/source-list-map/fromStringWithSourceMapTest.js`: the two large fixtures

Each input map and each expected map is read with the code and written again; sources are numbered
from 1, contents from 11. The texts are too long for the kernel, so these two are evaluated while the
file is elaborated (`#guard`). -/

/-- Text, mappings, sources and contents of the round trip. -/
def fromToFull (code mappings : String) (sources contents : List Int) :
    Option (String × String × List Int × List Int) :=
  match slmFromString code.toList sources contents mappings.toList with
  | .ok m => let r := slmToStringWithSourceMap m none
    some (String.ofList r.source, String.ofList r.map.mappings, r.map.sources, r.map.sourcesContent)
  | .error _ => none

/-- `babel.generated.js`, as text. -/
def babelCode : String :=
  "\"use strict\";\n\nvar _obj;\n\nvar _defineProperty = function (obj, key, value) { return Object.defineProperty(obj, key, { value: value, enumerable: key == null || typeof Symbol == \"undefined\" || key.constructor !== Symbol, configurable: true, writable: true }); };\n\nvar _taggedTemplateLiteral = function (strings, raw) { return Object.freeze(Object.defineProperties(strings, { raw: { value: Object.freeze(raw) } })); };\n\nvar _classCallCheck = function (instance, Constructor) { if (!(instance instanceof Constructor)) { throw new TypeError(\"Cannot call a class as a function\"); } };\n\nvar _createClass = (function () { function defineProperties(target, props) { for (var i = 0; i < props.length; i++) { var descriptor = props[i]; descriptor.enumerable = descriptor.enumerable || false; descriptor.configurable = true; if (\"value\" in descriptor) descriptor.writable = true; Object.defineProperty(target, descriptor.key, descriptor); } } return function (Constructor, protoProps, staticProps) { if (protoProps) defineProperties(Constructor.prototype, protoProps); if (staticProps) defineProperties(Constructor, staticProps); return Constructor; }; })();\n\nvar _get = function get(object, property, receiver) { var desc = Object.getOwnPropertyDescriptor(object, property); if (desc === undefined) { var parent = Object.getPrototypeOf(object); if (parent === null) { return undefined; } else { return get(parent, property, receiver); } } else if (\"value\" in desc) { return desc.value; } else { var getter = desc.get; if (getter === undefined) { return undefined; } return getter.call(receiver); } };\n\nvar _inherits = function (subClass, superClass) { if (typeof superClass !== \"function\" && superClass !== null) { throw new TypeError(\"Super expression must either be null or a function, not \" + typeof superClass); } subClass.prototype = Object.create(superClass && superClass.prototype, { constructor: { value: subClass, enumerable: false, writable: true, configurable: true } }); if (superClass) subClass.__proto__ = superClass; };\n\n// Expression bodies\nvar odds = evens.map(function (v) {\n  return v + 1;\n});\nvar nums = evens.map(function (v, i) {\n  return v + i;\n});\n\n// Statement bodies\nnums.forEach(function (v) {\n  if (v % 5 === 0) fives.push(v);\n});\n\n// Lexical this\nvar bob = {\n  _name: \"Bob\",\n  _friends: [],\n  printFriends: function printFriends() {\n    var _this4 = this;\n\n    this._friends.forEach(function (f) {\n      return console.log(_this4._name + \" knows \" + f);\n    });\n  }\n};\n\nvar SkinnedMesh = (function (_THREE$Mesh) {\n  function SkinnedMesh(geometry, materials) {\n    _classCallCheck(this, SkinnedMesh);\n\n    _get(Object.getPrototypeOf(SkinnedMesh.prototype), \"constructor\", this).call(this, geometry, materials);\n\n    this.idMatrix = SkinnedMesh.defaultMatrix();\n    this.bones = [];\n    this.boneMatrices = [];\n    //...\n  }\n\n  _inherits(SkinnedMesh, _THREE$Mesh);\n\n  _createClass(SkinnedMesh, [{\n    key: \"update\",\n    value: function update(camera) {\n      //...\n      _get(Object.getPrototypeOf(SkinnedMesh.prototype), \"update\", this).call(this);\n    }\n  }], [{\n    key: \"defaultMatrix\",\n    value: function defaultMatrix() {\n      return new THREE.Matrix4();\n    }\n  }]);\n\n  return SkinnedMesh;\n})(THREE.Mesh);\n\nvar obj = _obj = _defineProperty({\n  // __proto__\n  __proto__: theProtoObj,\n  // Shorthand for ‘handler: handler’\n  handler: handler,\n  // Methods\n  toString: function toString() {\n    // Super calls\n    return \"d \" + _get(Object.getPrototypeOf(_obj), \"toString\", this).call(this);\n  } }, \"prop_\" + (function () {\n  return 42;\n})(), 42);\n\n// Basic literal string creation\n\"In JavaScript \\\"\\n\\\" is a line-feed.\"(_taggedTemplateLiteral([\"In JavaScript this is\\n not legal.\"], [\"In JavaScript this is\\r\\n not legal.\"]));\n\n// Interpolate variable bindings\nvar name = \"Bob\",\n    time = \"today\";\n\"Hello \" + name + \", how are you \" + time + \"?\";\n\n// Construct an HTTP request prefix is used to interpret the replacements and construction\nGET(_taggedTemplateLiteral([\"http://foo.org/bar?a=\", \"&b=\", \"\\n    Content-Type: application/json\\n    X-Credentials: \", \"\\n    { \\\"foo\\\": \", \",\\n      \\\"bar\\\": \", \"}\"], [\"http://foo.org/bar?a=\", \"&b=\", \"\\r\\n    Content-Type: application/json\\r\\n    X-Credentials: \", \"\\r\\n    { \\\"foo\\\": \", \",\\r\\n      \\\"bar\\\": \", \"}\"]), a, b, credentials, foo, bar)(myOnReadyStateChangeHandler);\n\n// list matching\nvar _ref = [1, 2, 3];\nvar a = _ref[0];\nvar b = _ref[2];\n\n// object matching\n\nvar _getASTNode = getASTNode();\n\nvar a = _getASTNode.op;\nvar b = _getASTNode.lhs.op;\nvar c = _getASTNode.rhs;\n\n// object matching shorthand\n// binds `op`, `lhs` and `rhs` in scope\n\nvar _getASTNode2 = getASTNode();\n\nvar op = _getASTNode2.op;\nvar lhs = _getASTNode2.lhs;\nvar rhs = _getASTNode2.rhs;\n\n// Can be used in parameter position\nfunction g(_ref2) {\n  var x = _ref2.name;\n\n  console.log(x);\n}\ng({ name: 5 });\n\n// Fail-soft destructuring\nvar _ref3 = [];\nvar a = _ref3[0];\n\na === undefined;\n\n// Fail-soft destructuring with defaults\nvar _ref4 = [];\nvar _ref4$0 = _ref4[0];\nvar a = _ref4$0 === undefined ? 1 : _ref4$0;\n\na === 1;\n\n// Computed (dynamic) property names\n\n// Multiline strings\n\n//# sourceMappingURL=babel.generated.js.map"

-- `babel.input.map` to `babel.expected.map`
#guard fromToFull babelCode
    ";;;;;;;;;;;;;;;;;AACA,IAAI,IAAI,GAAG,KAAK,CAAC,GAAG,CAAC,UAAA,CAAC;SAAI,CAAC,GAAG,CAAC;CAAA,CAAC,CAAC;AACjC,IAAI,IAAI,GAAG,KAAK,CAAC,GAAG,CAAC,UAAC,CAAC,EAAE,CAAC;SAAK,CAAC,GAAG,CAAC;CAAA,CAAC,CAAC;;;AAGtC,IAAI,CAAC,OAAO,CAAC,UAAA,CAAC,EAAI;AAChB,MAAI,CAAC,GAAG,CAAC,KAAK,CAAC,EACb,KAAK,CAAC,IAAI,CAAC,CAAC,CAAC,CAAC;CACjB,CAAC,CAAC;;;AAGH,IAAI,GAAG,GAAG;AACR,OAAK,EAAE,KAAK;AACZ,UAAQ,EAAE,EAAE;AACZ,cAAY,EAAA,wBAAG;;;AACb,QAAI,CAAC,QAAQ,CAAC,OAAO,CAAC,UAAA,CAAC;aACrB,OAAO,CAAC,GAAG,CAAC,OAAK,KAAK,GAAG,SAAS,GAAG,CAAC,CAAC;KAAA,CAAC,CAAC;GAC5C;CACF,CAAA;;IAEK,WAAW;AACJ,WADP,WAAW,CACH,QAAQ,EAAE,SAAS,EAAE;0BAD7B,WAAW;;AAEb,+BAFE,WAAW,6CAEP,QAAQ,EAAE,SAAS,EAAE;;AAE3B,QAAI,CAAC,QAAQ,GAAG,WAAW,CAAC,aAAa,EAAE,CAAC;AAC5C,QAAI,CAAC,KAAK,GAAG,EAAE,CAAC;AAChB,QAAI,CAAC,YAAY,GAAG,EAAE,CAAC;;GAExB;;YARG,WAAW;;eAAX,WAAW;;WAST,gBAAC,MAAM,EAAE;;AAEb,iCAXE,WAAW,wCAWE;KAChB;;;WACmB,yBAAG;AACrB,aAAO,IAAI,KAAK,CAAC,OAAO,EAAE,CAAC;KAC5B;;;SAfG,WAAW;GAAS,KAAK,CAAC,IAAI;;AAkBpC,IAAI,GAAG;;AAEH,aAAW,WAAW;;AAEtB,WAAA,OAAO;;AAEP,YAAQ,oBAAG;;AAEV,WAAO,IAAI,iEAAmB,CAAC;GAC/B,IAEC,OAAO,GAAG,CAAC;SAAM,EAAE;EAAA,EAAG,EAAI,EAAE,CACjC,CAAC;;;AAGF,iJAIY;;;AAGZ,IAAI,IAAI,GAAG,KAAK;IAAE,IAAI,GAAG,OAAO,CAAC;AACjC,WAAS,IAAI,sBAAiB,IAAI,OAAG;;;AAGrC,GAAG,+TAAwB,CAAC,EAAM,CAAC,EAEd,WAAW,EACjB,GAAG,EACH,GAAG,EAAI,2BAA2B,CAAC,CAAC;;;WAGpC,CAAC,CAAC,EAAC,CAAC,EAAC,CAAC,CAAC;IAAjB,CAAC;IAAI,CAAC;;;;kBAIF,UAAU,EAAE;;IADX,CAAC,eAAL,EAAE;IAAgB,CAAC,eAAZ,GAAG,CAAI,EAAE;IAAY,CAAC,eAAN,GAAG;;;;;mBAKX,UAAU,EAAE;;IAA5B,EAAE,gBAAF,EAAE;IAAE,GAAG,gBAAH,GAAG;IAAE,GAAG,gBAAH,GAAG;;;AAGjB,SAAS,CAAC,QAAY;MAAJ,CAAC,SAAP,IAAI;;AACd,SAAO,CAAC,GAAG,CAAC,CAAC,CAAC,CAAC;CAChB;AACD,CAAC,CAAC,EAAC,IAAI,EAAE,CAAC,EAAC,CAAC,CAAA;;;YAGF,EAAE;IAAP,CAAC;;AACN,CAAC,KAAK,SAAS,CAAC;;;YAGF,EAAE;;IAAX,CAAC,2BAAG,CAAC;;AACV,CAAC,KAAK,CAAC,CAAC"
    [1] [11] =
    some (babelCode,
      ";;;;;;;;;;;;;;;;;AACA;AAAA;AAAA;AACA;AAAA;AAAA;AACA;;AAEA;AACA;AAEA;AACA;;AAEA;AACA;AACA;AACA;;;AACA;AACA;AAAA;AACA;AACA;AACA;AACA;AACA;AADA;AACA;AACA;AACA;AACA;AACA;AACA;;AAEA;AACA;AATA;AACA;AADA;;AASA;;AAEA;AACA;;;AACA;AACA;AACA;;;AAfA;AAAA;AACA;AAiBA;;AAEA;;AAEA;;AAEA;;AAEA;AACA;AAEA;AAAA;AACA;;AAGA;AACA;;AAMA;AAAA;AACA;AACA;;AAEA;AACA;;AAMA;AAAA;AAAA;AACA;;;AAGA;AACA;AAFA;AAAA;AAAA;AACA;;;;AAIA;AACA;AADA;AAAA;AAAA;AACA;;AAEA;AAAA;AACA;AAAA;AACA;AACA;AACA;;AAEA;AAAA;AACA;AAAA;AACA;;AAEA;;AAAA;AACA;AAAA;AACA;;;;;A",
      [1], [11])

-- `babel.expected.map` to `babel.expected.map`
#guard fromToFull babelCode
    ";;;;;;;;;;;;;;;;;AACA;AAAA;AAAA;AACA;AAAA;AAAA;AACA;;AAEA;AACA;AAEA;AACA;;AAEA;AACA;AACA;AACA;;;AACA;AACA;AAAA;AACA;AACA;AACA;AACA;AACA;AADA;AACA;AACA;AACA;AACA;AACA;AACA;;AAEA;AACA;AATA;AACA;AADA;;AASA;;AAEA;AACA;;;AACA;AACA;AACA;;;AAfA;AAAA;AACA;AAiBA;;AAEA;;AAEA;;AAEA;;AAEA;AACA;AAEA;AAAA;AACA;;AAGA;AACA;;AAMA;AAAA;AACA;AACA;;AAEA;AACA;;AAMA;AAAA;AAAA;AACA;;;AAGA;AACA;AAFA;AAAA;AAAA;AACA;;;;AAIA;AACA;AADA;AAAA;AAAA;AACA;;AAEA;AAAA;AACA;AAAA;AACA;AACA;AACA;;AAEA;AAAA;AACA;AAAA;AACA;;AAEA;;AAAA;AACA;AAAA;AACA;;;;;A"
    [1] [11] =
    some (babelCode,
      ";;;;;;;;;;;;;;;;;AACA;AAAA;AAAA;AACA;AAAA;AAAA;AACA;;AAEA;AACA;AAEA;AACA;;AAEA;AACA;AACA;AACA;;;AACA;AACA;AAAA;AACA;AACA;AACA;AACA;AACA;AADA;AACA;AACA;AACA;AACA;AACA;AACA;;AAEA;AACA;AATA;AACA;AADA;;AASA;;AAEA;AACA;;;AACA;AACA;AACA;;;AAfA;AAAA;AACA;AAiBA;;AAEA;;AAEA;;AAEA;;AAEA;AACA;AAEA;AAAA;AACA;;AAGA;AACA;;AAMA;AAAA;AACA;AACA;;AAEA;AACA;;AAMA;AAAA;AAAA;AACA;;;AAGA;AACA;AAFA;AAAA;AAAA;AACA;;;;AAIA;AACA;AADA;AAAA;AAAA;AACA;;AAEA;AAAA;AACA;AAAA;AACA;AACA;AACA;;AAEA;AAAA;AACA;AAAA;AACA;;AAEA;;AAAA;AACA;AAAA;AACA;;;;;A",
      [1], [11])

/-- `babel2.generated.js`, as text. -/
def babel2Code : String :=
  "/******/ (function(modules) { // webpackBootstrap\n/******/ \t// The module cache\n/******/ \tvar installedModules = {};\n/******/\n/******/ \t// The require function\n/******/ \tfunction __webpack_require__(moduleId) {\n/******/\n/******/ \t\t// Check if module is in cache\n/******/ \t\tif(installedModules[moduleId])\n/******/ \t\t\treturn installedModules[moduleId].exports;\n/******/\n/******/ \t\t// Create a new module (and put it into the cache)\n/******/ \t\tvar module = installedModules[moduleId] = {\n/******/ \t\t\texports: {},\n/******/ \t\t\tid: moduleId,\n/******/ \t\t\tloaded: false\n/******/ \t\t};\n/******/\n/******/ \t\t// Execute the module function\n/******/ \t\tmodules[moduleId].call(module.exports, module, module.exports, __webpack_require__);\n/******/\n/******/ \t\t// Flag the module as loaded\n/******/ \t\tmodule.loaded = true;\n/******/\n/******/ \t\t// Return the exports of the module\n/******/ \t\treturn module.exports;\n/******/ \t}\n/******/\n/******/\n/******/ \t// expose the modules object (__webpack_modules__)\n/******/ \t__webpack_require__.m = modules;\n/******/\n/******/ \t// expose the module cache\n/******/ \t__webpack_require__.c = installedModules;\n/******/\n/******/ \t// __webpack_public_path__\n/******/ \t__webpack_require__.p = \"/\";\n/******/\n/******/ \t// Load entry module and return exports\n/******/ \treturn __webpack_require__(0);\n/******/ })\n/************************************************************************/\n/******/ ([\n/* 0 */\n/*!******************!*\\\n  !*** multi main ***!\n  \\******************/\n/***/ function(module, exports, __webpack_require__) {\n\n\tmodule.exports = __webpack_require__(/*! /Users/joe/Documents/Development/create-react-app/packages/react-scripts/template/src/index.js */1);\n\n\n/***/ },\n/* 1 */\n/*!******************************************************!*\\\n  !*** ./packages/react-scripts/template/src/index.js ***!\n  \\******************************************************/\n/***/ function(module, exports) {\n\n\t'use strict';\n\n\tvar _createClass = function () { function defineProperties(target, props) { for (var i = 0; i < props.length; i++) { var descriptor = props[i]; descriptor.enumerable = descriptor.enumerable || false; descriptor.configurable = true; if (\"value\" in descriptor) descriptor.writable = true; Object.defineProperty(target, descriptor.key, descriptor); } } return function (Constructor, protoProps, staticProps) { if (protoProps) defineProperties(Constructor.prototype, protoProps); if (staticProps) defineProperties(Constructor, staticProps); return Constructor; }; }();\n\n\tfunction _classCallCheck(instance, Constructor) { if (!(instance instanceof Constructor)) { throw new TypeError(\"Cannot call a class as a function\"); } }\n\n\tvar Test = function () {\n\t  function Test() {\n\t    _classCallCheck(this, Test);\n\t  }\n\n\t  _createClass(Test, [{\n\t    key: 'foo',\n\t    value: function foo() {\n\t      console.log('bar');\n\t      throw new Error('bar');\n\t    }\n\t  }]);\n\n\t  return Test;\n\t}();\n\n/***/ }\n/******/ ]);\n//# sourceMappingURL=bundle.js.map\n"

-- `babel2.input.map` to `babel2.expected.map`
#guard fromToFull babel2Code
    ";AAAA;AACA;;AAEA;AACA;;AAEA;AACA;AACA;;AAEA;AACA;AACA,uBAAe;AACf;AACA;AACA;;AAEA;AACA;;AAEA;AACA;;AAEA;AACA;AACA;;;AAGA;AACA;;AAEA;AACA;;AAEA;AACA;;AAEA;AACA;;;;;;;;;;;;;;;;;;;;;;;;;;KCtCMA,I;;;;;;;2BACE;AACJC,eAAQC,GAAR,CAAY,KAAZ;AACA,aAAM,IAAIC,KAAJ,CAAU,KAAV,CAAN;AACD"
    [1, 2] [11, 12] =
    some (babel2Code,
      ";AAAA;AACA;;AAEA;AACA;;AAEA;AACA;AACA;;AAEA;AACA;AACA;AACA;AACA;AACA;;AAEA;AACA;;AAEA;AACA;;AAEA;AACA;AACA;;;AAGA;AACA;;AAEA;AACA;;AAEA;AACA;;AAEA;AACA;;;;;;;;;;;;;;;;;;;;;;;;;;ACtCA;;;;;;;AACA;AACA;AACA;AACA;;;;;;;;;",
      [1, 2], [11, 12])

-- `babel2.expected.map` to `babel2.expected.map`
#guard fromToFull babel2Code
    ";AAAA;AACA;;AAEA;AACA;;AAEA;AACA;AACA;;AAEA;AACA;AACA;AACA;AACA;AACA;;AAEA;AACA;;AAEA;AACA;;AAEA;AACA;AACA;;;AAGA;AACA;;AAEA;AACA;;AAEA;AACA;;AAEA;AACA;;;;;;;;;;;;;;;;;;;;;;;;;;ACtCA;;;;;;;AACA;AACA;AACA;AACA;;;;;;;;;"
    [1, 2] [11, 12] =
    some (babel2Code,
      ";AAAA;AACA;;AAEA;AACA;;AAEA;AACA;AACA;;AAEA;AACA;AACA;AACA;AACA;AACA;;AAEA;AACA;;AAEA;AACA;;AAEA;AACA;AACA;;;AAGA;AACA;;AAEA;AACA;;AAEA;AACA;;AAEA;AACA;;;;;;;;;;;;;;;;;;;;;;;;;;ACtCA;;;;;;;AACA;AACA;AACA;AACA;;;;;;;;;",
      [1, 2], [11, 12])

end WS.Tests
