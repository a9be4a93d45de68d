/-!
# Text primitives

Rust strings are modelled as lists of Unicode scalar values (`Char`).  Byte lengths are UTF-8
lengths (`blen`).  All byte-level cuts of the code happen next to an ASCII byte or after whole
characters, so the list-of-characters view loses nothing; the byte level is modelled in
`Verif/Model/Slice.lean`.
-/

namespace WS

/-- A Rust `String`/`&str`/`StringSlice` (`src/types/string_slice.rs:12-89`), as its characters.
Simplification: the pointer/length/`Rc` representation is in `Verif/Model/Slice.lean`. -/
abbrev Str := List Char

/-- Ways the Rust code can panic (a trap in the wasm build).
* `unreachable` – `unreachable!()`: `src/source.rs:66,80`, `src/replace_source.rs:307,321`
* `unwrap` – `Option::unwrap`/`Result::unwrap` on the wrong case: e.g.
  `src/source_map/source_map_generator.rs:144,148`
* `vlq` – `vlq::decode(..).unwrap()` / `parse_mappings(..).unwrap()` on malformed input:
  `src/source_list_map/from_string_with_source_map.rs:29,40,47`,
  `src/source_map/source_map_generator.rs:289`
* `index` – slice index out of range: `src/source_map/source_map_generator.rs:297,298`
* `boundary` – cutting a string inside a character: `src/utils.rs:34`
* `borrow` – `RefCell` already borrowed: `src/source.rs:31-37`, `src/concat_source.rs:21`
* `overflow` – arithmetic overflow where the release build would run away
  (`src/source_map/source_map_generator.rs:122`)
* `message` – explicit `panic!`/`assert!`: `src/source_map_source.rs:50,59`,
  `src/source_map/source_map_generator.rs:210`
* `dangling` – not a panic of the code: a reference to a non-existing object of the model heap
* `fuel` – not a panic of the code: recursion budget of the model used up (shown unreachable) -/
inductive Panic where
  | unreachable | unwrap | vlq | index | boundary | borrow | overflow | message | dangling | fuel
  deriving DecidableEq, Repr

/-- Result of a computation that may panic. -/
abbrev M := Except Panic

deriving instance DecidableEq for Except

/-- `str::len`: number of UTF-8 bytes (used in `src/types/string_slice.rs:58-60`). -/
def blen (s : Str) : Nat := (s.map Char.utf8Size).sum

/-- `char::is_whitespace` (Unicode `White_Space`), used through `str::trim` in
`src/original_source.rs:60` and `src/source_list_map/from_string_with_source_map.rs:93,119`. -/
def isWs (c : Char) : Bool :=
  let n := c.toNat
  (9 ≤ n && n ≤ 13) || n == 32 || n == 0x85 || n == 0xA0 || n == 0x1680 ||
  (0x2000 ≤ n && n ≤ 0x200A) || n == 0x2028 || n == 0x2029 || n == 0x202F || n == 0x205F ||
  n == 0x3000

/-- `s.trim().is_empty()` (`src/original_source.rs:60`,
`src/source_list_map/from_string_with_source_map.rs:93,119`): trimming removes everything exactly
if all characters are white space. -/
def isBlank (s : Str) : Bool := s.all isWs

/-- `s.ends_with('\n')` (`src/source_list_map/source_node.rs:25,37`, `src/prefix_source.rs:29`). -/
def endsNl (s : Str) : Bool := s.getLast? == some '\n'

/-- `number_of_lines`, `src/source_list_map/utils.rs:4-6`: counts newline bytes. -/
def numberOfLines (s : Str) : Nat := s.count '\n'

/-- `get_unfinished_lines`, `src/source_list_map/utils.rs:9-12`: bytes after the last newline
(`rfind`), the whole byte length if there is none. -/
def unfinishedLines (s : Str) : Nat :=
  blen (s.reverse.takeWhile (· != '\n'))

/-- `Split` iterator state, `src/types/string_slice.rs:167-190`. -/
structure Split where
  isNext : Bool
  rest : Option Str
  pat : Char
  keep : Bool
  deriving DecidableEq, Repr

/-- `Split::new`, `src/types/string_slice.rs:175-182`. -/
def Split.new (s : Str) (pat : Char) (keep : Bool) : Split :=
  { isNext := true, rest := some s, pat, keep }

/-- `Split::rest`, `src/types/string_slice.rs:184-189`. -/
def Split.takeRest (it : Split) : Option Str × Split :=
  (it.rest, { it with rest := none, isNext := false })

/-- `Split::next`, `src/types/string_slice.rs:194-217`.
The byte `position` is the index of the first separator character; the separators used by the code
are ASCII. The `unwrap` of line 198 is the `none` case, an explicit panic. -/
def Split.next (it : Split) : M (Option Str × Split) :=
  if it.isNext then
    match it.rest with
    | none => .error .unwrap
    | some s =>
      let i := s.idxOf it.pat
      if i < s.length then
        if it.keep then
          .ok (some (s.take (i + 1)), { it with rest := some (s.drop (i + 1)) })
        else
          .ok (some (s.take i), { it with rest := some (s.drop (i + 1)) })
      else
        .ok (some s, { it with isNext := false, rest := none })
  else .ok (none, it)

/-- The sequence of pieces a `split_keep_seperator` iterator yields
(`src/types/string_slice.rs:49-51,192-218`), as a list. Loops of the code over the iterator are
modelled as recursion over this list; `Verif/Props/C29.lean` proves that the iterator yields
exactly this list and that `rest` is always the concatenation of the pieces still to come. -/
def splitKeep (p : Char) : Str → List Str
  | [] => [[]]
  | c :: cs =>
    if c = p then [c] :: splitKeep p cs
    else match splitKeep p cs with
      | [] => [[c]]
      | l :: ls => (c :: l) :: ls

/-- The pieces a `split` iterator yields (`src/types/string_slice.rs:45-47,192-218`), as a list. -/
def splitDrop (p : Char) : Str → List Str
  | [] => [[]]
  | c :: cs =>
    if c = p then [] :: splitDrop p cs
    else match splitDrop p cs with
      | [] => [[c]]
      | l :: ls => (c :: l) :: ls

/-- Stable insertion sort by a `≤` test. Stands for `slice::sort`/`sort_by` of std
(`src/source_map/types/mapping_list.rs:37`, `src/replace_source.rs:48`). The orders used there are
total on all fields that matter, so every correct sorting algorithm gives the same list
(`Verif/Proofs/Sort.lean`). -/
def insertBy {α : Type _} (le : α → α → Bool) (a : α) : List α → List α
  | [] => [a]
  | b :: l => if le a b then a :: b :: l else b :: insertBy le a l

/-- See `insertBy`. -/
def sortBy {α : Type _} (le : α → α → Bool) : List α → List α
  | [] => []
  | a :: l => insertBy le a (sortBy le l)

end WS
