import Verif.Model.Heap
/-! # Tests of the model against the fixtures of the repository

These are tests, not proofs: they compare the model with expected values written in `/repo`. -/

namespace WS.Tests

/-- Mapping string of `sourceAndMap` (test helper). -/
def mapStr (r : M (StringWithSourceMap × Heap)) : String × String × List Int × List Int :=
  match r with
  | .ok (x, _) => (String.ofList x.source, String.ofList x.map.mappings, x.map.sources,
      x.map.sourcesContent)
  | .error _ => ("panic", "", [], [])

/-- Round trip through the list map, as in `test-js/source-list-map/fixtures/from-to-tests`. -/
def fromTo (code mappings : String) (sources : List Int) : String × List Int :=
  match slmFromString code.toList sources [] mappings.toList with
  | .ok m => let r := slmToStringWithSourceMap m none
    (String.ofList r.map.mappings, r.map.sources)
  | .error _ => ("panic", [])

/-- Run replacement calls in order on object 1 (test helper). -/
def repls (h : Heap) (l : List (Int × Int × String)) : Heap :=
  l.foldl (fun h r => match hReplace h 1 r.1 r.2.1 r.2.2.toList 0 0 with | .ok h => h | _ => h) h

/-- `test-js/ReplaceSource.js:8-36`. -/
def replaceHeap : Heap :=
  let h : Heap := [.original "Hello World!\n{}\nLine 3\nLine 4\nLine 5\nLast\nLine".toList 1 2,
    .replace (.ref 0) [] true]
  let h := repls h [(16, 38 - 2, ""), (1, 4, "i "), (1, 4, "bye"), (7, 7, "0000")]
  let h := match hInsert h 1 14 "\n Multi Line\n".toList 0 with | .ok h => h | _ => h
  repls h [(41, 41, " ")]

-- `test-js/ReplaceSource.js:49-62`
example : mapStr (apiSourceAndMap replaceHeap 1 false true none) =
    ("Hi bye W0000rld!\n{\n Multi Line\n}\nLast Line", "AAAA;AACA;AAAA;AAAA;AAIA,KACA", [1], [2]) := by
  decide +kernel
example : (mapStr (apiSourceAndMap replaceHeap 1 true true none)).1 =
    "Hi bye W0000rld!\n{\n Multi Line\n}\nLast Line" := by decide +kernel
example : (apiSource replaceHeap 1).map (fun p => String.ofList p.1) =
    .ok "Hi bye W0000rld!\n{\n Multi Line\n}\nLast Line" := by decide +kernel

/-- `test-js/ReplaceSource.js:65-76`. -/
def replaceHeap2 : Heap :=
  let h : Heap := [.original "Hello\nWorld!".toList 1 2, .replace (.ref 0) [] true]
  let h := match hInsert h 1 0 "Message: ".toList 0 with | .ok h => h | _ => h
  repls h [(2, 9, "y A")]

-- `test-js/ReplaceSource.js:83-93`
example : mapStr (apiSourceAndMap replaceHeap2 1 false true none) =
    ("Message: Hey Ad!", "AAAA,cACA", [1], [2]) := by decide +kernel
example : (mapStr (apiSourceAndMap replaceHeap2 1 true true none)).1 = "Message: Hey Ad!" := by
  decide +kernel

/-- `test-js/ConcatSource.js:8-15`. -/
def concatHeap : Heap :=
  [.raw "Hello World\n".toList,
   .original "console.log('test');\nconsole.log('test2');\n".toList 1 11,
   .original "Hello2\n".toList 2 12,
   .concat [.ref 0, .ref 1, .ref 2]]

-- `test-js/ConcatSource.js:16-64`
example : mapStr (apiSourceAndMap concatHeap 3 false true none) =
    ("Hello World\nconsole.log('test');\nconsole.log('test2');\nHello2\n", ";AAAA;AACA;ACDA;",
     [1, 2], [11, 12]) := by decide +kernel
example : mapStr (apiSourceAndMap concatHeap 3 true true none) =
    ("Hello World\nconsole.log('test');\nconsole.log('test2');\nHello2\n", ";AAAA;AACA;ACDA",
     [1, 2], [11, 12]) := by decide +kernel
example : (apiSize concatHeap 3).map Prod.fst = .ok 62 := by decide +kernel

/-- `test-js/ConcatSource.js:67-77`. -/
def concatHeap2 : Heap :=
  [.raw "Hello World\n".toList,
   .original "console.log('test');\nconsole.log('test2');\n".toList 1 11,
   .concat [.ref 0, .ref 1, .str "console.log('string')".toList]]

-- `test-js/ConcatSource.js:84-104`
example : (mapStr (apiSourceAndMap concatHeap2 2 false true none)).2.1 = ";AAAA;AACA;A" := by
  decide +kernel
example : (apiSize concatHeap2 2).map Prod.fst = .ok 76 := by decide +kernel

/-- `test-js/PrefixSource.js:9-16`. -/
def prefixHeap : Heap :=
  [.original "console.log('test');console.log('test2');\nconsole.log('test22');\n".toList 1 11,
   .prefixed "\t".toList (.ref 0)]

-- `test-js/PrefixSource.js:16-62`
example : mapStr (apiSourceAndMap prefixHeap 1 false true none) =
    ("\tconsole.log('test');console.log('test2');\n\tconsole.log('test22');\n", "AAAA;AACA;",
     [1], [11]) := by decide +kernel
example : mapStr (apiSourceAndMap prefixHeap 1 true true none) =
    ("\tconsole.log('test');console.log('test2');\n\tconsole.log('test22');\n",
     "AAAA,qBAAoB;AACpB", [1], [11]) := by decide +kernel
example : (apiSize prefixHeap 1).map Prod.fst = .ok 67 := by decide +kernel

/-- `test-js/PrefixSource.js:66-80`. -/
def prefixHeap2 : Heap :=
  [.original "console.log('test');\n".toList 1 11,
   .original "\nconsole.log('test1');\n\n".toList 2 12,
   .original "\nconsole.log('test2');\n".toList 3 13,
   .original "console.log('test3');".toList 4 14,
   .original "\n".toList 5 15,
   .original "console.log('test4');".toList 6 16,
   .concat [.ref 0, .ref 1, .ref 2, .ref 3, .ref 4, .ref 5],
   .prefixed "\t".toList (.ref 6)]

-- `test-js/PrefixSource.js:82-94`
example : (apiSource prefixHeap2 7).map (fun p => String.ofList p.1) = .ok
    "\tconsole.log('test');\n\t\n\tconsole.log('test1');\n\t\n\t\n\tconsole.log('test2');\n\tconsole.log('test3');\n\tconsole.log('test4');" := by
  decide +kernel
example : (mapStr (apiSourceAndMap prefixHeap2 7 true true none)).1 =
    "\tconsole.log('test');\n\t\n\tconsole.log('test1');\n\t\n\t\n\tconsole.log('test2');\n\tconsole.log('test3');\n\tconsole.log('test4');" := by
  decide +kernel

-- `test-js/source-list-map/fixtures/from-to-tests`
example : fromTo "\tHello\n\tWorld\n" "CAAA;CACA;" [1] = ("AAAA;AACA;", [1]) := by decide +kernel
example : fromTo "\tHello\n\tWorld\n" "CAAA;CCAA;" [1, 2] = ("AAAA;ACAA;", [1, 2]) := by
  decide +kernel

example : fromTo "\tHello\n\n\tWorld\n\n" "CAAA;;AAEA;;" [1] = ("AAAA;AACA;AACA;AACA;", [1]) := by
  decide +kernel
example : fromTo "\tHello\n\tWorld\n\tOffset" "CACA;CCAA;CAEA" [1, 2] =
    ("AACA;ACAA;AAEA", [1, 2]) := by decide +kernel
example : fromTo "\tHello\n\tWorld" "CAAA;CACA" [1] = ("AAAA;AACA", [1]) := by decide +kernel
example : fromTo "\tHello\n\tWorld\n" "A,CAAA;A,CACA;A" [1] = ("AAAA;AACA;", [1]) := by
  decide +kernel
example : fromTo "function foobar() {\n  return; // foo\n}"
    "AAAA,SAAS,MAAT,GAAmB;AACjB;CADF;AAAmB" [1] = ("AAAA;AACA;AADA", [1]) := by decide +kernel
example : fromTo "\tHello World Test\n\tWorld Test\n\tTest\n" "CAAA,MAC,,MAC;,CAD,MAC;CA," [1] =
    ("AAAA;AACA;AACA;", [1]) := by decide +kernel
example : fromTo "\tHello\n\tWorld\n" "CAAA;CACA;" [] = ("AAAA;AACA;", [-1]) := by decide +kernel

end WS.Tests
