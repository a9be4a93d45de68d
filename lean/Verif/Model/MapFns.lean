import Verif.Model.Slm
/-! # `src/wasm_api/source_list_map/mapping_functions.rs` -/

namespace WS

/-- The loop of `mapping_functions.rs:32-49` from line number `i` on, of `n` lines. `lines_count - 2` is
computed modulo the word size in the release build: for `n = 1` it matches no line number. The
debug build panics there. -/
def wasmPrefixLoop (p : Str) (n : Nat) : Nat → List Str → Str
  | _, [] => []
  | i, l :: ls =>
    (if i + 2 = n then l
     else if i + 1 = n then (if l.isEmpty then ['\n'] else '\n' :: p) ++ l
     else l ++ '\n' :: p) ++ wasmPrefixLoop p n (i + 1) ls

/-- `PrefixMappingFunction::map`, `mapping_functions.rs:24-52`. -/
def wasmPrefix (p : Str) (code : Str) : Str :=
  p ++ wasmPrefixLoop p (splitDrop '\n' code).length 0 (splitDrop '\n' code)

/-- `_sourcelistmap_map_generated_code_prefix`, `src/wasm_api/source_list_map/source_list_map.rs:72-81`. -/
def wasmPrefixMap (p : Str) (m : Slm) : Slm :=
  (slmMapGenerated (fun (_ : Unit) s => (wasmPrefix p s, ())) () m).1

/-- `_sourcelistmap_map_generated_code_identical`, `source_list_map.rs:53-61`, with
`mapping_functions.rs:3-8`. -/
def wasmIdenticalMap (m : Slm) : Slm :=
  (slmMapGenerated (fun (_ : Unit) s => (s, ())) () m).1

end WS
