import Verif.Spec.SourceMap
import Verif.Model.Generator
/-! # What a mapping says, and histories of calls to a generator -/

namespace WS

/-- A mapping as `add_mapping` with validation accepts it (both an original position and a source or
neither; lines count from 1), with a line number that fits a 32-bit `usize`. -/
def Mapping.Valid (m : Mapping) : Prop :=
  1 ≤ m.generated.1 ∧
  match m.original, m.source with
  | some (ol, _), some _ => 1 ≤ ol ∧ ol ≤ 4294967296
  | none, none => m.name = none
  | _, _ => False

/-- What a mapping says. -/
def Mapping.point (m : Mapping) : Spec.Point :=
  ⟨m.generated.1, m.generated.2,
    match m.original, m.source with
    | some (ol, oc), some s => some ⟨s, ol, oc, m.name⟩
    | _, _ => none⟩

instance (m : Mapping) : Decidable m.Valid := by
  unfold Mapping.Valid
  rcases m with ⟨g, s, n, o⟩
  cases o <;> cases s <;> simp only <;> infer_instance

namespace Spec

/-- The position of `p` is not after that of `q`. -/
def Point.Le (p q : Point) : Prop := p.line < q.line ∨ (p.line = q.line ∧ p.col ≤ q.col)

/-- What a written map says. -/
def mapPoints (m : SourceMap) : Option (List Point) := points m.sources m.names m.mappings

/-- What a generator writes says `ps`. -/
def Says (g : Generator) (ps : List Point) : Prop :=
  ∃ m g', g.toSourceMap = .ok (m, g') ∧ mapPoints m = some ps

/-- Composition of an outer original position with an inner map of file `file`: positions in that
file for which the inner map knows a source are replaced by what the inner map says; the name is the
inner one if there is one. -/
def compose (file : Int) (inner : List Point) (o : Origin) : Origin :=
  if o.source = file then
    match lookup inner o.line o.col with
    | some i => { i with name := i.name.or o.name }
    | none => o
  else o

/-- `compose` for a point. -/
def Point.compose (file : Int) (inner : List Point) (p : Point) : Point :=
  { p with origin := p.origin.map (Spec.compose file inner) }

/-- Numbers that a 32-bit reader accepts. -/
def Point.Small (p : Point) : Prop :=
  p.col ≤ 4294967295 ∧ ∀ o, p.origin = some o → o.line ≤ 4294967296 ∧ o.col ≤ 4294967295

/-- `Made applied read g ps`: `g` comes from a new generator, or from reading a map, by the calls of its API, and the calls
recorded `ps` (in call order). `applied` says that an inner map was applied, `read` that the
mappings were read (serialized or looked up) since then. After an application followed by a read no
further mapping may be added (see `C35_not_general`). -/
inductive Made : Bool → Bool → Generator → List Point → Prop where
  | new (file : Option Int) (root : Option Str) (skip : Bool) :
      Made false false (Generator.new file root skip) []
  | parse {ss cs ns s ps file root cd g} : points ss ns s = some ps → (∀ p ∈ ps, p.Small) →
      ss.length ≤ 4294967296 → ns.length ≤ 4294967296 → (cd = true → ss.Nodup ∧ ns.Nodup) →
      Generator.fromSourceMap ss cs s ns file root cd = .ok g → Made false false g ps
  | add {a r g ps m g'} : Made a r g ps → ¬ (a = true ∧ r = true) → m.Valid →
      g.addMappingV m = .ok g' → Made a r g' (ps ++ [m.point])
  | setContent {a r g ps} (s : Int) (c : Option Int) : Made a r g ps →
      Made a r (g.setSourceContent s c) ps
  | serialize {a r g ps m g'} : Made a r g ps → g.toSourceMap = .ok (m, g') → Made a true g' ps
  | locate {a r g ps} (l c : Nat) : Made a r g ps → Made a true (g.originalPositionFor l c).2 ps
  | apply {a r g ps a' r' inner ips jps file f g' inner'} : Made a r g ps → Made a' r' inner jps →
      Says inner ips → file.or inner.file = some f →
      g.applySourceMap inner file = .ok (g', inner') →
      Made true false g' (ps.map (Point.compose f ips))
  | applied {a r g ps a' r' inner ips file g' inner'} : Made a r g ps → Made a' r' inner ips →
      g.applySourceMap inner file = .ok (g', inner') → Made a' true inner' ips

end Spec
end WS
