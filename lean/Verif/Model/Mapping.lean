import Verif.Model.Text
import Std
/-! # `src/source_map/types/mapping.rs`, `mapping_list.rs` -/

namespace WS

/-- `Mapping`, `src/source_map/types/mapping.rs:4-10`. Positions are (line, column), lines 1-based. -/
structure Mapping where
  generated : Nat × Nat
  source : Option Int
  name : Option Int
  original : Option (Nat × Nat)
  deriving DecidableEq, Repr

/-- Lexicographic comparison of Rust pairs. -/
def cmpPair (a b : Nat × Nat) : Ordering := (compare a.1 b.1).then (compare a.2 b.2)

/-- Comparison of Rust `Option`s: `None` first. -/
def cmpOpt {α : Type _} (cmp : α → α → Ordering) : Option α → Option α → Ordering
  | none, none => .eq
  | none, some _ => .lt
  | some _, none => .gt
  | some a, some b => cmp a b

/-- `Ord for Mapping`, `src/source_map/types/mapping.rs:23-42`. -/
def Mapping.cmp (a b : Mapping) : Ordering :=
  (cmpPair a.generated b.generated).then <|
  (cmpOpt compare a.source b.source).then <|
  (cmpOpt cmpPair a.original b.original).then <|
  cmpOpt compare a.name b.name

/-- `a <= b` on mappings (`src/source_map/types/mapping.rs:44-48`). -/
def Mapping.le (a b : Mapping) : Bool := (Mapping.cmp a b).isLE

/-- `MappingList`, `src/source_map/types/mapping_list.rs:4-8`. -/
structure MappingList where
  list : List Mapping
  sorted : Bool
  last : Option Mapping
  deriving DecidableEq, Repr

/-- `MappingList::new`, `src/source_map/types/mapping_list.rs:11-17`. -/
def MappingList.new : MappingList := { list := [], sorted := true, last := none }

/-- `MappingList::add`, `src/source_map/types/mapping_list.rs:19-33`. -/
def MappingList.add (l : MappingList) (m : Mapping) : MappingList :=
  let isNewLast := match l.last with
    | some lm => Mapping.le lm m
    | none => true
  if isNewLast then { l with list := l.list ++ [m], last := some m }
  else { l with list := l.list ++ [m], sorted := false }

/-- `MappingList::sort`, `src/source_map/types/mapping_list.rs:35-40`. -/
def MappingList.sort (l : MappingList) : MappingList :=
  if l.sorted then l else { l with list := sortBy Mapping.le l.list, sorted := true }

/-- `MappingList::set_unsorted`, `src/source_map/types/mapping_list.rs:42-45`. -/
def MappingList.setUnsorted (l : MappingList) : MappingList :=
  { l with sorted := false, last := none }

end WS
