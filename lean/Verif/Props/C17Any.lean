import Verif.Props.C17Exact
import Verif.Props.C33Any
/-! # C17 Which of several segments counts, for any map -/

namespace WS
open Spec

theorem resolveAll_ordered {S N : List Int} : ∀ {qs : List Parsed} {ps : List Point},
    qs.Pairwise (fun a b => Parsed.le a b = true) → resolveAll S N (qs.map Parsed.seg) = some ps →
    ps.Pairwise Point.Le ∧ ∀ p ∈ ps, ∃ q ∈ qs, q.genLine + 1 = p.line ∧ q.genCol = p.col
  | [], ps, _, h => by cases h; exact ⟨.nil, fun p hp => by cases hp⟩
  | q :: qs, ps, hs, h => by
    rw [List.map_cons, resolveAll] at h
    split at h
    · rename_i p ps' hp hps
      cases h
      obtain ⟨h1, h2⟩ := List.pairwise_cons.1 hs
      obtain ⟨k1, k2⟩ := resolveAll_ordered h2 hps
      obtain ⟨e1, e2⟩ := resolve_place hp
      have e2' : q.genCol = p.col := by
        replace e2 : (q.genCol : Int) = p.col := e2
        omega
      refine ⟨List.pairwise_cons.2 ⟨fun p' hp' => ?_, k1⟩, fun p' hp' => ?_⟩
      · obtain ⟨q', hq', a1, a2⟩ := k2 p' hp'
        have := Parsed.le_iff_gen (h1 q' hq')
        replace e1 : q.genLine + 1 = p.line := e1
        simp only [Point.Le]
        omega
      · rcases List.mem_cons.1 hp' with rfl | hp'
        · exact ⟨q, by simp, e1, e2'⟩
        · obtain ⟨q', hq', a⟩ := k2 p' hp'
          exact ⟨q', by simp [hq'], a⟩
    · cases h

/-- What a generator read from any map holds: its segments in reading order. -/
theorem fromSourceMap_any {ss cs ns : List Int} {s t : Str} {gs : List Seg} (hs : Spread s t) (hd : decode t = some gs)
    (hin : ∀ g ∈ gs, g.In32) {file : Option Int} {root : Option Str} {g : Generator}
    (h : Generator.fromSourceMap ss cs s ns file root true = .ok g) :
    ∃ qs : List Parsed, (∀ x, x ∈ qs.map Parsed.seg ↔ x ∈ gs) ∧ qs.Pairwise (fun a b => Parsed.le a b = true) ∧
      resolveAll ss.eraseDups ns.eraseDups (qs.map Parsed.seg) = some (g.mappings.list.map Mapping.point) ∧
      (g.mappings.list.map Mapping.point).Pairwise Point.Le := by
  rw [decode_eq] at hd
  obtain ⟨qs, e, rfl⟩ := parse_of_spread hs s.length {} _ (Nat.le_refl _) hd hin
  unfold Generator.fromSourceMap parseMappings at h
  rw [e] at h
  simp only [if_true, dedup_eraseDups] at h
  obtain ⟨ps, m1, m2⟩ := addParsed_points h
  rw [registerSources_mappings] at m2
  have m2' : g.mappings.list.map Mapping.point = ps := by
    rw [m2]; simp [Generator.new, MappingList.new]
  have hsort := sortBy_pairwise (le := Parsed.le) Parsed.le_total Parsed.le_trans qs
  refine ⟨_, fun x => ?_, hsort, by rw [m2']; exact m1, by rw [m2']; exact (resolveAll_ordered hsort m1).1⟩
  rw [List.mem_map, List.mem_map]
  exact ⟨fun ⟨q, h1, h2⟩ => ⟨q, (sortBy_perm qs).mem_iff.1 h1, h2⟩,
    fun ⟨q, h1, h2⟩ => ⟨q, (sortBy_perm qs).mem_iff.2 h1, h2⟩⟩

/-- C17 for every map, also those not well-formed: after any history, if `sourceAndMap()` of a `SourceMapSource` that was
given the code `v` and a map without an inner map answers at all (`C33_columns`: exactly if the map is `ColumnsRead`), it
returns `v` and a map that says of every character what the segment says that counts at its place, with indices taken into
the arrays without repetitions. The segments are those of the string with the commas that `ColumnsRead` puts in. -/
theorem C17_any (ops : List Op) (h : Heap) (hrun : run ops = .ok h) (hst : ∀ op ∈ ops, Spec.Op.StableMap op)
    (i : Nat) (v : Str) (vi name : Int) (d : SmData) (orig : Option Int)
    (hc : (created ops)[i]? = some (.newSms v vi name ⟨some d, none⟩ orig none)) (module_ : Bool) (file : Option Int)
    (r : _) (h' : Heap) (hr : apiSourceAndMap h i true module_ file = .ok (r, h')) :
    ∃ qs, r.source = v ∧ mapPoints r.map = some qs ∧
      ∀ t gs, Spread d.mappings t → decode t = some gs → (∀ g ∈ gs, g.In32) → ∀ k, k < v.length →
        let l := (posAfter (v.take k)).1
        let c := (posAfter (v.take k)).2
        ((∀ g ∈ gs, ¬ (g.line = l ∧ g.col ≤ c)) ∧ lookup qs l c = none) ∨
        ∃ g p, Counts gs l c g ∧ g.resolve d.sources.eraseDups d.names.eraseDups = some p ∧ lookup qs l c = p.origin := by
  have hsound := (C33_columns ops h hrun i module_ file).1 ⟨_, hr⟩
  have hopen : Opens ⟨some d, none⟩ := by
    cases hsound with
    | intro h0 hp _ =>
      rw [hc] at h0; cases h0
      exact hp.2.1
  obtain ⟨d', e, t0, gs0, hsp0, hd0, hall⟩ := hopen rfl
  cases e
  obtain ⟨g, hgen⟩ := (C81_reads d.sources d.contents d.names d.mappings none none).2 ⟨t0, gs0, hsp0, hd0, hall⟩
  obtain ⟨_, _, _, _, hord⟩ := fromSourceMap_any hsp0 hd0 (fun x hx => (hall x hx).1) hgen
  obtain ⟨A, hA, H⟩ := run_abs hrun
  have S := stable_of_ops hA hst
  have hobj := object_of_created hA hc
  obtain ⟨n, hn, htext, hattr, hleaf⟩ := fromString_attr v g hord (fromSourceMap_good hgen).1.valid
  obtain ⟨r', qs, hr', hq, hqa, _, hsrc⟩ := C09_attribution_partial n file none hleaf
  have hnode : (Tree.sms (Sms.create v vi name ⟨some d, none⟩ orig none)).node true module_ = .ok n := by
    simp only [Tree.node, Sms.node, Sms.create, SmHolder.getGen, hgen, hn, Except.map]
  obtain ⟨h'', _, e⟩ := api_sourceAndMap_columns S H (.sms hobj) hnode hr'
  rw [hr] at e
  cases e
  refine ⟨qs, hsrc.trans htext, hq, fun t gs hsp hd hin k hk => ?_⟩
  obtain ⟨qs0, hperm, hsorted, hlist, _⟩ := fromSourceMap_any hsp hd hin hgen
  have hm : n.marks.map Prod.fst = v := by rw [SmNode.marks_text, htext]
  have hsame := attributes_unique hattr hqa k (by
    have := congrArg List.length hm; simp at this; omega)
  rw [hm] at hsame
  dsimp only
  rw [hsame]
  rcases lookup_counts hsorted hlist (posAfter (v.take k)).1 (posAfter (v.take k)).2 with ⟨h1, h2⟩ | ⟨x, p, h1, h2, h3⟩
  · exact .inl ⟨fun x hx => h1 x ((hperm x).2 hx), h2⟩
  · exact .inr ⟨x, p, ⟨(hperm x).1 h1.mem, h1.line, h1.col, fun x' hx' => h1.last x' ((hperm x').2 hx')⟩, h2, h3⟩

/-! Non-trivial case: the map with ten numbers in one segment. -/

def C17_ten : List Op :=
  [.newSms "ab\nc".toList 1 2 ⟨some ⟨[5, 5, 6], [], [7], "AACAACCACA;AAAA".toList⟩, none⟩ none none]

example : ((run C17_ten).toOption.bind fun h =>
      (apiSourceAndMap h 0 true true none).toOption.map fun r => (r.1.source, mapPoints r.1.map)) =
    some ("ab\nc".toList, some [⟨1, 0, some ⟨5, 2, 0, some 7⟩⟩, ⟨1, 1, some ⟨6, 2, 1, some 7⟩⟩,
      ⟨2, 0, some ⟨6, 2, 1, none⟩⟩]) := by decide +kernel

example : ∀ op ∈ C17_ten, Spec.Op.StableMap op := by
  intro op hop
  simp only [C17_ten, List.mem_cons, List.not_mem_nil, or_false] at hop
  subst hop
  exact .inl rfl

end WS
