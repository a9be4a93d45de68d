import Verif.Props.C15
import Verif.Props.C18
import Verif.Props.C32
/-! # What the node of a `SourceMapSource` says, with and without an inner map -/

namespace WS
open Spec

/-! ## Lookups -/

theorem lookup_mapOrigin (f : Origin → Origin) (ps : List Point) (l c : Nat) :
    lookup (ps.map fun p => { p with origin := p.origin.map f }) l c = (lookup ps l c).map f := by
  unfold lookup
  rw [pointAt_map (fun p => { p with origin := p.origin.map f }) (fun p => ⟨rfl, rfl⟩)]
  cases pointAt ps l c <;> rfl

theorem lookup_compose (f : Int) (ips ps : List Point) (l c : Nat) :
    lookup (ps.map (Point.compose f ips)) l c = (lookup ps l c).map (compose f ips) :=
  lookup_mapOrigin _ ps l c

/-! ## Nodes -/

/-- A good map is read as it is. -/
theorem Spec.GoodMap.read {ss cs ns : List Int} {mp : Str} {ps : List Point} (hg : GoodMap ss ns mp ps) :
    ∃ g, Generator.fromSourceMap ss cs mp ns none none true = .ok g ∧ g.Ok ∧ g.mappings.Truthful ∧
      g.mappings.list.map Mapping.point = ps ∧ (g.mappings.list.map Mapping.point).Pairwise Point.Le ∧
      g.mappings.sort.list.map Mapping.point = ps := by
  obtain ⟨g, hgen, k1, k2, _, k4, k5, _⟩ := fromSourceMap_ok (cs := cs) none none true hg.points
    hg.small hg.sources.1 hg.names.1 (fun _ => ⟨hg.sources.2, hg.names.2⟩)
  have hp : (g.mappings.list.map Mapping.point).Perm ps := by
    have := k4.map Mapping.point
    rw [List.map_map] at this
    rwa [show (Mapping.point ∘ mappingOf) = id from funext mappingOf_point, List.map_id] at this
  refine ⟨g, hgen, k1, k2, eq_of_perm_of_lt hp hg.strict k5, k5,
    eq_of_perm_of_lt ((g.mappings.sort_perm.map _).trans hp) hg.strict ?_⟩
  rw [MappingList.sort_list k2, List.pairwise_map]
  exact (sortBy_sorted _).imp fun h => Mapping.le_generated h

/-- The generator of the map given says `ps`, as it is and when it is sorted. -/
def SmHolder.Means (hd : SmHolder) (ps : List Point) : Prop :=
  ∃ g hd', hd.getGen = .ok (g, hd') ∧ g.Ok ∧ g.mappings.Truthful ∧ g.mappings.list.map Mapping.point = ps ∧
    (g.mappings.list.map Mapping.point).Pairwise Point.Le ∧ g.mappings.sort.list.map Mapping.point = ps

theorem Spec.GoodMap.means {d : SmData} {ps : List Point} (hg : GoodMap d.sources d.names d.mappings ps) :
    SmHolder.Means ⟨some d, none⟩ ps := by
  obtain ⟨g, h1, h2⟩ := Spec.GoodMap.read hg (cs := d.contents)
  exact ⟨g, ⟨some d, some g⟩, by simp only [SmHolder.getGen, h1], h2⟩

/-- The node of a `SourceMapSource` without an inner map says what its map says. -/
theorem Sms.node_means {v : Str} {vi name : Int} {hd : SmHolder} {orig : Option Int} {ps : List Point}
    (hg : hd.Means ps) {n : SmNode} {s' : Sms} (e : (Sms.create v vi name hd orig none).node = .ok (n, s')) :
    n.marks.map Prod.fst = v ∧ Attributes ps n.marks := by
  obtain ⟨g, hd', h1, h2, h3, h4, h5, -⟩ := hg
  obtain ⟨n', hn, htext, hattr, -⟩ := fromString_attr v g h5 h2.valid
  simp only [Sms.node, Sms.create, h1, hn] at e
  cases e
  rw [h4] at hattr
  exact ⟨(SmNode.marks_text n).trans htext, hattr⟩

theorem Sms.node_says {v : Str} {vi name : Int} {d : SmData} {orig : Option Int} {ps : List Point}
    (hg : GoodMap d.sources d.names d.mappings ps) {n : SmNode} {s' : Sms}
    (e : (Sms.create v vi name ⟨some d, none⟩ orig none).node = .ok (n, s')) :
    n.marks.map Prod.fst = v ∧ Attributes ps n.marks := Sms.node_means hg.means e

theorem setSourceContent_mappings (g : Generator) (s : Int) (c : Option Int) :
    (g.setSourceContent s c).mappings = g.mappings := (g.setContent_fields s c).2.2

/-- The node of a `SourceMapSource` with an inner map says what the two maps say, one after the other. -/
theorem Sms.node_means_inner {v : Str} {vi name : Int} {hd ih : SmHolder} {orig : Option Int}
    {ps ips : List Point} (hg : hd.Means ps) (hi : ih.Means ips) {n : SmNode} {s' : Sms}
    (e : (Sms.create v vi name hd orig (some ih)).node = .ok (n, s')) :
    n.marks.map Prod.fst = v ∧ Attributes (ps.map (Point.compose name ips)) n.marks := by
  obtain ⟨g, hd', h1, h2, h3, h4, h5, -⟩ := hg
  obtain ⟨ig, ih', i1, i2, i3, i4, i5, i6⟩ := hi
  simp only [Sms.node, Sms.create, h1, i1, Bool.false_eq_true, if_false] at e
  have key : ∀ g0 : Generator, g0.Ok → g0.mappings = g.mappings → ∀ g2 ig2,
      g0.applySourceMap ig (some name) = .ok (g2, ig2) →
      g2.mappings.list.map Mapping.point = ps.map (Point.compose name ips) ∧ g2.Ok := by
    intro g0 ok0 hm g2 ig2 ha
    obtain ⟨f, hf, k1, -, k3, -⟩ := applySourceMap_ok ok0 i2 i3 ha
    cases hf
    refine ⟨?_, k1⟩
    rw [k3, List.map_map, ← h4, List.map_map, hm]
    apply List.map_congr_left
    intro m hm'
    show (composeMapping name ig.mappings.sort.list m).point = Point.compose name ips m.point
    rw [← i6]
    exact composeMapping_point
      (fun x hx => i2.valid x (ig.mappings.sort_perm.mem_iff.1 hx))
      (by rw [MappingList.sort_list i3]; exact sortBy_sorted _) (h2.valid m hm')
  have fin : ∀ g0 : Generator, g0.Ok → g0.mappings = g.mappings → ∀ g2 ig2,
      g0.applySourceMap ig (some name) = .ok (g2, ig2) → ∀ n', fromStringWithGenerator v g2 = .ok n' →
      n'.marks.map Prod.fst = v ∧ Attributes (ps.map (Point.compose name ips)) n'.marks := by
    intro g0 ok0 hm g2 ig2 ha n' hn'
    obtain ⟨k1, k2⟩ := key g0 ok0 hm g2 ig2 ha
    have ho : (g2.mappings.list.map Mapping.point).Pairwise Point.Le := by
      rw [k1, List.pairwise_map]
      rw [h4] at h5
      exact h5.imp fun h => h
    obtain ⟨x, hx, htext, hattr, -⟩ := fromString_attr v g2 ho k2.valid
    have hxn : x = n' := by rw [hx] at hn'; exact Except.ok.inj hn'
    subst hxn
    rw [k1] at hattr
    exact ⟨(SmNode.marks_text x).trans htext, hattr⟩
  split at e
  · cases e
  · rename_i g2 ig2 ha
    split at e
    · cases e
    · rename_i n' hn'
      cases e
      cases orig with
      | some c => exact fin (g.setSourceContent name (some c)) (Generator.setContent_ok h2 _ _) (setSourceContent_mappings _ _ _) _ _ ha _ hn'
      | none => exact fin g h2 rfl _ _ ha _ hn'

theorem Sms.node_says_inner {v : Str} {vi name : Int} {d d' : SmData} {orig : Option Int} {ps ips : List Point}
    (hg : GoodMap d.sources d.names d.mappings ps) (hi : GoodMap d'.sources d'.names d'.mappings ips)
    {n : SmNode} {s' : Sms}
    (e : (Sms.create v vi name ⟨some d, none⟩ orig (some ⟨some d', none⟩)).node = .ok (n, s')) :
    n.marks.map Prod.fst = v ∧ Attributes (ps.map (Point.compose name ips)) n.marks :=
  Sms.node_means_inner hg.means hi.means e

end WS
