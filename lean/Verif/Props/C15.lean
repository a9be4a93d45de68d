import Verif.Proofs.FromStringAttr
import Verif.Proofs.Api
import Verif.Props.C10
/-! # C15, C16 Code and map into nodes; C17 `SourceMapSource` passes its map through -/

namespace WS
open Spec

/-- C15. Whatever the generator holds (its mappings may be in any order, out of range, invalid), nodes
are built and their joined text is the code. -/
theorem C15_no_text_lost (code : Str) (g : Generator) :
    ∃ n, fromStringWithGenerator code g = .ok n ∧ n.text = code :=
  fromString_text code g

/-- C16. If the mappings are ordered by generated position, every character of the nodes carries what
the last mapping at or before it on its line says, and nothing if there is none. -/
theorem C16_attribution (code : Str) (g : Generator)
    (hord : (g.mappings.list.map Mapping.point).Pairwise Point.Le)
    (hval : ∀ m ∈ g.mappings.list, m.Valid) :
    ∃ n, fromStringWithGenerator code g = .ok n ∧ n.text = code ∧
      Attributes (g.mappings.list.map Mapping.point) n.marks := by
  obtain ⟨n, h1, h2, h3, _⟩ := fromString_attr code g hord hval
  exact ⟨n, h1, h2, h3⟩

instance (p q : Point) : Decidable (p.Lt q) := by unfold Point.Lt; infer_instance

/-- Two sets of points that attribute the same marked text agree on its characters. -/
theorem attributes_unique {ps qs : List Point} {m : Marked} (hp : Attributes ps m)
    (hq : Attributes qs m) (k : Nat) (hk : k < m.length) :
    lookup qs (posAfter ((m.map Prod.fst).take k)).1 (posAfter ((m.map Prod.fst).take k)).2 =
      lookup ps (posAfter ((m.map Prod.fst).take k)).1 (posAfter ((m.map Prod.fst).take k)).2 := by
  have h : m[k]? = some (m[k].1, m[k].2) := List.getElem?_eq_getElem hk
  have h1 := hp k _ _ h
  have h2 := hq k _ _ h
  rw [List.map_take] at h1 h2
  rw [h1, h2]

/-- A well-formed map with numbers within 32 bits, segments at strictly increasing positions and no
repeated array entries, that says `ps`. -/
structure Spec.GoodMap (ss ns : List Int) (s : Str) (ps : List Point) : Prop where
  points : points ss ns s = some ps
  small : ∀ p ∈ ps, p.Small
  strict : ps.Pairwise Point.Lt
  sources : ss.length ≤ 4294967296 ∧ ss.Nodup
  names : ns.length ≤ 4294967296 ∧ ns.Nodup

/-- C17, as far as it holds. After any history, `sourceAndMap()` of a `SourceMapSource` that was given
the code `v` and a map without an inner map returns `v` and a map that attributes every character of
`v` exactly as the given map does. Missing: maps that repeat an array entry (false, see
`C32_not_general`) and maps with several segments at one position (false, see `C17_not_general`);
files whose numbers do not fit 32 bits. -/
theorem C17_passthrough_partial (ops : List Op) (h : Heap) (hrun : run ops = .ok h)
    (hst : ∀ op ∈ ops, Spec.Op.StableMap op) (i : Nat) (v : Str) (vi name : Int) (d : SmData)
    (orig : Option Int) (hc : (created ops)[i]? = some (.newSms v vi name ⟨some d, none⟩ orig none))
    (ps : List Point) (hg : GoodMap d.sources d.names d.mappings ps) (module_ : Bool)
    (file : Option Int) :
    ∃ r h' qs, apiSourceAndMap h i true module_ file = .ok (r, h') ∧ r.source = v ∧
      mapPoints r.map = some qs ∧
      ∀ k, k < v.length → lookup qs (posAfter (v.take k)).1 (posAfter (v.take k)).2 =
        lookup ps (posAfter (v.take k)).1 (posAfter (v.take k)).2 := by
  obtain ⟨A, hA, H⟩ := run_abs hrun
  have S := stable_of_ops hA hst
  have hobj := object_of_created hA hc
  obtain ⟨g, hgen, k1, _, _, k4, k5, _⟩ := fromSourceMap_ok (cs := d.contents) none none true hg.points
    hg.small hg.sources.1 hg.names.1 (fun _ => ⟨hg.sources.2, hg.names.2⟩)
  have hlist : g.mappings.list.map Mapping.point = ps := by
    refine eq_of_perm_of_lt ?_ hg.strict k5
    have := k4.map Mapping.point
    rw [List.map_map] at this
    rwa [show (Mapping.point ∘ mappingOf) = id from funext mappingOf_point, List.map_id] at this
  obtain ⟨n, hn, htext, hattr, hleaf⟩ := fromString_attr v g k5 k1.valid
  obtain ⟨r, qs, hr, hq, hqa, _, hsrc⟩ := C09_attribution_partial n file none hleaf
  have hnode : (Tree.sms (Sms.create v vi name ⟨some d, none⟩ orig none)).node true module_ = .ok n := by
    simp only [Tree.node, Sms.node, Sms.create, SmHolder.getGen, hgen, hn, Except.map]
  obtain ⟨h', _, e⟩ := api_sourceAndMap_columns S H (.sms hobj) hnode hr
  refine ⟨r, h', qs, e, hsrc.trans htext, hq, fun k hk => ?_⟩
  rw [hlist] at hattr
  have hm : n.marks.map Prod.fst = v := by rw [SmNode.marks_text, htext]
  have := attributes_unique hattr hqa k (by
    have := congrArg List.length hm; simp at this; omega)
  rwa [hm] at this

/-! Non-trivial cases. -/

/-- Two lines of code with a map of five segments: two sources, a name, an unmapped segment and a
segment past the end. -/
def C17_data : SmData :=
  ⟨[1, 2], [], [7], "AAAA,IAAIA,GCCD,I;CAAC,uB".toList⟩

/-- A history that builds a `SourceMapSource` and reads it. -/
def C17_history : List Op :=
  [.newRaw "x".toList, .newSms "let foo = bar;\nbaz(é)".toList 5 6 ⟨some C17_data, none⟩ none none,
   .node 1 true true, .listMap 1 false true]

example : (run C17_history).toOption.isSome = true := by decide +kernel
example : ∃ ps, GoodMap C17_data.sources C17_data.names C17_data.mappings ps ∧ ps.length = 6 :=
  ⟨[⟨1, 0, some ⟨1, 1, 0, none⟩⟩, ⟨1, 4, some ⟨1, 1, 4, some 7⟩⟩, ⟨1, 7, some ⟨2, 2, 3, none⟩⟩,
    ⟨1, 11, none⟩, ⟨2, 1, some ⟨2, 2, 4, none⟩⟩, ⟨2, 24, none⟩],
   ⟨by decide +kernel, by
      intro p hp
      simp only [List.mem_cons, List.not_mem_nil, or_false] at hp
      rcases hp with rfl | rfl | rfl | rfl | rfl | rfl <;>
        exact ⟨by decide, fun o ho => by cases ho <;> decide⟩,
     by decide +kernel, by decide, by decide⟩, rfl⟩
example : ((run C17_history).toOption.bind fun h =>
      (apiSourceAndMap h 1 true true none).toOption.map fun r => (r.1.source, mapPoints r.1.map)) =
    some ("let foo = bar;\nbaz(é)".toList,
      some [⟨1, 0, some ⟨1, 1, 0, none⟩⟩, ⟨1, 4, some ⟨1, 1, 4, some 7⟩⟩,
        ⟨1, 7, some ⟨2, 2, 3, none⟩⟩, ⟨1, 11, none⟩, ⟨2, 1, some ⟨2, 2, 4, none⟩⟩]) := by
  decide +kernel
/-- Unordered mappings, one of them past the end. -/
def C15_generator : Generator :=
  (((Generator.new none none true).addMapping ⟨(2, 1), some 1, none, some (1, 0)⟩).addMapping
    ⟨(1, 1), some 1, none, some (1, 0)⟩).addMapping ⟨(9, 9), none, none, none⟩

example : ((fromStringWithGenerator "ab\ncd".toList C15_generator).toOption.map SmNode.text) =
    some "ab\ncd".toList := by decide +kernel

/-- Two segments at one position. -/
def C17_twice : SmData := ⟨[1], [], [], "AACA,AADA".toList⟩

/-- C17 fails for maps with several segments at one position: the last of them counts, but reading
reorders them. -/
theorem C17_not_general :
    (points C17_twice.sources C17_twice.names C17_twice.mappings).map (lookup · 1 0) =
      some (some ⟨1, 1, 0, none⟩) ∧
    ((run [.newSms "x".toList 5 6 ⟨some C17_twice, none⟩ none none]).toOption.bind fun h =>
      (apiSourceAndMap h 0 true true none).toOption.bind fun r =>
        (mapPoints r.1.map).map (lookup · 1 0)) = some (some ⟨1, 2, 0, none⟩) := by
  constructor <;> decide +kernel

end WS
