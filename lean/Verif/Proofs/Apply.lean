import Verif.Proofs.Locate
import Verif.Proofs.Parse
/-! # `apply_source_map_generator` -/

namespace WS
open Spec

/-- The new mapping, looked up in an ordered inner list. -/
def composeMapping (file : Int) (l : List Mapping) (m : Mapping) : Mapping :=
  match m.original with
  | none => m
  | some (line, col) =>
    if m.source = some file then
      let o := originalPositionIn l line col
      if o.source.isSome then
        { m with source := o.source
                 name := if o.name.isSome then o.name else m.name
                 original := o.original }
      else m
    else m

theorem applyOne_eq (file : Int) (inner i : Generator) (m : Mapping)
    (hi : i = inner ∨ i = { inner with mappings := inner.mappings.sort }) :
    ∃ i', applyOne (some file) i m = (composeMapping file inner.mappings.sort.list m, i') ∧
      (i' = inner ∨ i' = { inner with mappings := inner.mappings.sort }) := by
  obtain ⟨gen, src, nm, orig⟩ := m
  unfold applyOne composeMapping
  cases orig with
  | none => exact ⟨i, rfl, hi⟩
  | some o =>
    obtain ⟨line, col⟩ := o
    dsimp only
    have hp : i.originalPositionFor line col = (originalPositionIn inner.mappings.sort.list line col,
        { inner with mappings := inner.mappings.sort }) := by
      rcases hi with rfl | rfl
      · rfl
      · simp only [Generator.originalPositionFor, MappingList.sort_sort]
    split
    · rw [hp]
      dsimp only
      split
      · exact ⟨_, rfl, .inr rfl⟩
      · exact ⟨_, rfl, .inr rfl⟩
    · exact ⟨i, rfl, hi⟩

theorem applyLoop_eq (file : Int) (inner : Generator) : ∀ (ms : List Mapping) (i : Generator),
    (i = inner ∨ i = { inner with mappings := inner.mappings.sort }) →
    ∃ i', applyLoop (some file) i ms = (ms.map (composeMapping file inner.mappings.sort.list), i') ∧
      (i' = inner ∨ i' = { inner with mappings := inner.mappings.sort }) := by
  intro ms
  induction ms with
  | nil => intro i hi; exact ⟨i, rfl, hi⟩
  | cons m ms ih =>
    intro i hi
    obtain ⟨i1, e1, h1⟩ := applyOne_eq file inner i m hi
    obtain ⟨i2, e2, h2⟩ := ih i1 h1
    refine ⟨i2, ?_, h2⟩
    simp only [applyLoop, e1, e2, List.map_cons]

theorem origin_isSome {m : Mapping} (h : m.Valid) :
    m.point.origin.isSome = m.source.isSome := by
  obtain ⟨g, s, n, o⟩ := m
  obtain ⟨_, h⟩ := h
  cases s <;> cases o <;> simp_all [Mapping.point]

theorem originalPositionIn_mem {l : List Mapping} {line col : Nat} :
    originalPositionIn l line col = emptyMapping ∨ originalPositionIn l line col ∈ l := by
  unfold originalPositionIn
  dsimp only
  split
  · exact .inl rfl
  · rename_i m hm
    split
    · right
      have : ∃ k : Nat, l[k]? = some m := by
        revert hm
        split
        · intro h; exact ⟨_, h⟩
        · split
          · intro h; cases h
          · intro h; exact ⟨_, h⟩
      obtain ⟨k, hk⟩ := this
      exact List.mem_of_getElem? hk
    · exact .inl rfl

theorem composeMapping_generated (file : Int) (l : List Mapping) (m : Mapping) :
    (composeMapping file l m).generated = m.generated := by
  obtain ⟨gen, src, nm, orig⟩ := m
  cases orig with
  | none => rfl
  | some o =>
    simp only [composeMapping]
    split
    · split <;> rfl
    · rfl

theorem composeMapping_valid {file : Int} {l : List Mapping} (hl : ∀ m ∈ l, m.Valid) {m : Mapping}
    (hm : m.Valid) : (composeMapping file l m).Valid := by
  obtain ⟨gen, src, nm, orig⟩ := m
  cases orig with
  | none => exact hm
  | some o =>
    obtain ⟨line, col⟩ := o
    simp only [composeMapping]
    split
    · split
      · rename_i hs
        refine ⟨hm.1, ?_⟩
        rcases originalPositionIn_mem (l := l) (line := line) (col := col) with he | he
        · rw [he] at hs; cases hs
        · have hv := (hl _ he).2
          generalize originalPositionIn l line col = x at hs hv
          obtain ⟨g, s, n, o⟩ := x
          cases s <;> cases o <;> simp_all
      · exact hm
    · exact hm

theorem composeMapping_point {file : Int} {l : List Mapping} (hl : ∀ m ∈ l, m.Valid)
    (hs : l.Pairwise (fun a b => Mapping.le a b = true)) {m : Mapping} (hm : m.Valid) :
    (composeMapping file l m).point = m.point.compose file (l.map Mapping.point) := by
  obtain ⟨gen, src, nm, orig⟩ := m
  cases orig with
  | none => rfl
  | some o =>
    obtain ⟨line, col⟩ := o
    cases src with
    | none => exact absurd hm.2 (by simp)
    | some s =>
      simp only [composeMapping, Option.some.injEq, Point.compose, Mapping.point, Option.map_some,
        compose]
      split
      · have hlk := originalPositionIn_lookup l hs line col
        split
        · rename_i hsome
          rcases originalPositionIn_mem (l := l) (line := line) (col := col) with he | he
          · rw [he] at hsome; cases hsome
          · have hv := (hl _ he).2
            generalize originalPositionIn l line col = x at hsome hv hlk
            obtain ⟨g, s', n', o'⟩ := x
            cases s' with
            | none => cases hsome
            | some s' =>
              cases o' with
              | none => simp at hv
              | some o' =>
                obtain ⟨ol', oc'⟩ := o'
                rw [← hlk]
                simp only [Mapping.point, Point.mk.injEq, Option.some.injEq, Origin.mk.injEq,
                  true_and]
                cases n' <;> rfl
        · rename_i hnone
          have hn : lookup (l.map Mapping.point) line col = none := by
            rw [← hlk]
            generalize originalPositionIn l line col = x at hnone
            obtain ⟨g, s', n', o'⟩ := x
            cases s' with
            | some s' => simp at hnone
            | none => cases o' <;> rfl
          rw [hn]
      · rfl

theorem foldl_addSource (ss : List Int) : ∀ g : Generator,
    (ss.foldl Generator.addSource g).mappings = g.mappings ∧
    (ss.foldl Generator.addSource g).names = g.names ∧
    (ss.foldl Generator.addSource g).contents = g.contents ∧
    (Table g.sources → Table (ss.foldl Generator.addSource g).sources) ∧
    (∀ x, x ∈ (ss.foldl Generator.addSource g).sources.map Prod.fst ↔
      x ∈ g.sources.map Prod.fst ∨ x ∈ ss) := by
  induction ss with
  | nil => intro g; exact ⟨rfl, rfl, rfl, id, by simp⟩
  | cons s ss ih =>
    intro g
    obtain ⟨h1, h2, h3, h4, h5⟩ := ih (g.addSource s)
    refine ⟨h1, h2, h3, fun ht => h4 (ht.insert s), fun x => ?_⟩
    rw [List.foldl_cons, h5 x]
    have : x ∈ (g.addSource s).sources.map Prod.fst ↔ x ∈ g.sources.map Prod.fst ∨ x = s := mem_insert
    rw [this, List.mem_cons]
    simp only [or_assoc]

theorem foldl_addName (ss : List Int) : ∀ g : Generator,
    (ss.foldl Generator.addName g).mappings = g.mappings ∧
    (ss.foldl Generator.addName g).sources = g.sources ∧
    (ss.foldl Generator.addName g).contents = g.contents ∧
    (Table g.names → Table (ss.foldl Generator.addName g).names) ∧
    (∀ x, x ∈ (ss.foldl Generator.addName g).names.map Prod.fst ↔
      x ∈ g.names.map Prod.fst ∨ x ∈ ss) := by
  induction ss with
  | nil => intro g; exact ⟨rfl, rfl, rfl, id, by simp⟩
  | cons s ss ih =>
    intro g
    obtain ⟨h1, h2, h3, h4, h5⟩ := ih (g.addName s)
    refine ⟨h1, h2, h3, fun ht => h4 (ht.insert s), fun x => ?_⟩
    rw [List.foldl_cons, h5 x]
    have : x ∈ (g.addName s).names.map Prod.fst ↔ x ∈ g.names.map Prod.fst ∨ x = s := mem_insert
    rw [this, List.mem_cons]
    simp only [or_assoc]

theorem foldl_setContent (cs : List (Int × Int)) : ∀ g : Generator,
    let g' := cs.foldl (fun g p => g.setSourceContent p.1 (some p.2)) g
    g'.mappings = g.mappings ∧ g'.sources = g.sources ∧ g'.names = g.names ∧ g'.file = g.file := by
  induction cs with
  | nil => intro g; exact ⟨rfl, rfl, rfl, rfl⟩
  | cons c cs ih =>
    intro g
    have := ih (g.setSourceContent c.1 (some c.2))
    exact this

theorem table_nil : Table [] := ⟨fun k p h => by simp at h, by simp⟩

/-- The result of an application. -/
theorem applySourceMap_ok {g inner : Generator} (hg : g.Ok) (hi : inner.Ok)
    (hit : inner.mappings.Truthful) {file : Option Int} {g' inner' : Generator}
    (h : g.applySourceMap inner file = .ok (g', inner')) :
    ∃ f, file.or inner.file = some f ∧ g'.Ok ∧ g'.mappings.sorted = false ∧
      g'.mappings.list = g.mappings.list.map (composeMapping f inner.mappings.sort.list) ∧
      (inner' = inner ∨ inner' = { inner with mappings := inner.mappings.sort }) := by
  unfold Generator.applySourceMap at h
  cases hf : file.or inner.file with
  | none => rw [hf] at h; cases h
  | some f =>
    rw [hf] at h
    dsimp only at h
    obtain ⟨i', e, hi'⟩ := applyLoop_eq f inner g.mappings.setUnsorted.list inner (.inl rfl)
    rw [e] at h
    dsimp only at h
    cases h
    refine ⟨f, rfl, ?_⟩
    have hlist : g.mappings.setUnsorted.list = g.mappings.list := rfl
    rw [hlist]
    generalize hL : g.mappings.list.map (composeMapping f inner.mappings.sort.list) = L
    have hLv : ∀ m ∈ L, m.Valid := by
      intro m hm
      rw [← hL, List.mem_map] at hm
      obtain ⟨a, ha, rfl⟩ := hm
      exact composeMapping_valid (fun x hx => hi.valid x (inner.mappings.sort_perm.mem_iff.1 hx))
        (hg.valid a ha)
    obtain ⟨c1, c2, c3, _⟩ := foldl_setContent inner'.contents
      ((L.filterMap (·.name)).foldl Generator.addName ((L.filterMap (·.source)).foldl Generator.addSource
        { g with mappings := { g.mappings.setUnsorted with list := L },
                 sources := if L.isEmpty then g.sources else [], names := [] }))
    obtain ⟨n1, n2, n3, n4, n5⟩ := foldl_addName (L.filterMap (·.name))
      ((L.filterMap (·.source)).foldl Generator.addSource
        { g with mappings := { g.mappings.setUnsorted with list := L },
                 sources := if L.isEmpty then g.sources else [], names := [] })
    obtain ⟨s1, s2, s3, s4, s5⟩ := foldl_addSource (L.filterMap (·.source))
        { g with mappings := { g.mappings.setUnsorted with list := L },
                 sources := if L.isEmpty then g.sources else [], names := [] }
    dsimp only at c1 c2 c3
    refine ⟨⟨?_, ?_, ?_, ?_, ?_⟩, ?_, ?_, hi'⟩
    · rw [c2, n2]
      apply s4
      show Table (if L.isEmpty then g.sources else [])
      split
      · exact hg.sources
      · exact table_nil
    · rw [c3]
      apply n4
      rw [s2]
      exact table_nil
    · rw [c1, n1, s1]; exact hLv
    · rw [c1, n1, s1, c2, n2]
      intro m hm s hs
      rw [s5]
      right
      rw [List.mem_filterMap]
      exact ⟨m, hm, hs⟩
    · rw [c1, n1, s1, c3]
      intro m hm s hs
      rw [n5]
      right
      rw [List.mem_filterMap]
      exact ⟨m, hm, hs⟩
    · rw [c1, n1, s1]; rfl
    · rw [c1, n1, s1]

theorem Spec.Says.unique {g : Generator} {ps qs : List Point} (h : Says g ps) (h' : Says g qs) : ps = qs := by
  obtain ⟨m, g1, e, hp⟩ := h
  obtain ⟨m', g2, e', hq⟩ := h'
  rw [e] at e'; cases e'
  rw [hp] at hq; exact Option.some.inj hq

theorem says_sorted {g : Generator} (h : g.Ok) (ht : g.mappings.Truthful) :
    Says g (g.mappings.sort.list.map Mapping.point) := by
  obtain ⟨m, e, _, _, _, hp⟩ := Generator.toSourceMap_ok h (by
    rw [MappingList.sort_list ht]; exact sortBy_sorted _)
  exact ⟨m, _, e, hp⟩

/-- Everything made through the API keeps the invariants. -/
theorem Spec.Made.inv {a r : Bool} {g : Generator} {ps : List Point} (h : Made a r g ps) :
    g.Ok ∧ g.mappings.Truthful ∧ (a = false → g.mappings.LastMax) ∧
      (a = true → r = false → g.mappings.sorted = false) ∧
      (g.mappings.list.map Mapping.point).Perm ps := by
  have hsort : ∀ {a r : Bool} {g : Generator} {ps : List Point},
      (g.Ok ∧ g.mappings.Truthful ∧ (a = false → g.mappings.LastMax) ∧
      (a = true → r = false → g.mappings.sorted = false) ∧
      (g.mappings.list.map Mapping.point).Perm ps) →
      ({ g with mappings := g.mappings.sort }.Ok ∧ g.mappings.sort.Truthful ∧
        (a = false → g.mappings.sort.LastMax) ∧
      (a = true → true = false → g.mappings.sort.sorted = false) ∧
      (g.mappings.sort.list.map Mapping.point).Perm ps) := by
    intro a r g ps h
    exact ⟨Generator.sort_ok h.1, MappingList.sort_truthful h.2.1,
      fun ha => MappingList.sort_lastMax (h.2.2.1 ha), fun _ hf => by simp at hf,
      (g.mappings.sort_perm.map _).trans h.2.2.2.2⟩
  induction h with
  | new file root skip =>
    refine ⟨Generator.new_ok _ _ _, fun _ => List.Pairwise.nil, fun _ => rfl, ?_, List.Perm.refl _⟩
    intro h; cases h
  | @parse ss cs ns s ps file root cd g hp hsm hss hns hnd hg =>
    obtain ⟨g₀, e, h1, h2, h3, h4, _⟩ := fromSourceMap_ok (cs := cs) file root cd hp hsm hss hns hnd
    rw [e] at hg; cases hg
    refine ⟨h1, h2, fun _ => h3, fun h => (by cases h), ?_⟩
    have := h4.map Mapping.point
    rw [List.map_map] at this
    have he : ps.map (Mapping.point ∘ mappingOf) = ps := by
      conv => rhs; rw [← List.map_id ps]
      exact List.map_congr_left fun p _ => mappingOf_point p
    rwa [he] at this
  | @add a r g ps m g' hM hsafe hv hadd ih =>
    have : g' = g.addMapping m := by
      unfold Generator.addMappingV at hadd
      split at hadd
      · cases hadd
      · cases hadd; rfl
    subst this
    rw [g.addMapping_mappings]
    have hP : ((g.mappings.add m).list.map Mapping.point).Perm (ps ++ [m.point]) := by
      rw [MappingList.add_list, List.map_append]
      exact ih.2.2.2.2.append_right _
    cases a with
    | false =>
      have := MappingList.add_inv ih.2.1 (ih.2.2.1 rfl) m
      exact ⟨Generator.addMapping_ok ih.1 hv, this.1, fun _ => this.2, fun h => (by cases h), hP⟩
    | true =>
      have hr : r = false := by cases r <;> simp_all
      have hs := ih.2.2.2.1 rfl hr
      have hs' : (g.mappings.add m).sorted = false := by
        unfold MappingList.add
        dsimp only
        split <;> split <;> simp_all
      refine ⟨Generator.addMapping_ok ih.1 hv, ?_, fun h => (by cases h), fun _ _ => hs', hP⟩
      intro h
      rw [hs'] at h; cases h
  | @setContent a r g ps s c hM ih =>
    obtain ⟨h1, h2, h3⟩ := g.setContent_fields s c
    rw [h3]
    exact ⟨Generator.setContent_ok ih.1 s c, ih.2⟩
  | @serialize a r g ps m g' hM hser ih =>
    have : g' = { g with mappings := g.mappings.sort } := by
      unfold Generator.toSourceMap Generator.serializeMappings at hser
      dsimp only at hser
      split at hser
      · cases hser
      · rename_i x y hxy
        split at hxy
        · cases hxy; cases hser; rfl
        · cases hxy
    subst this
    exact hsort ih
  | @locate a r g ps l c hM ih => exact hsort ih
  | @apply a r g ps a' r' inner ips jps file f g' inner' hM hI hS hf happ ih ihI =>
    obtain ⟨f', hf', hok, hsf, hlist, _⟩ := applySourceMap_ok ih.1 ihI.1 ihI.2.1 happ
    rw [hf] at hf'; cases hf'
    refine ⟨hok, fun h => ?_, fun h => (by cases h), fun _ _ => hsf, ?_⟩
    · rw [hsf] at h; cases h
    · have he : ips = inner.mappings.sort.list.map Mapping.point :=
        Says.unique hS (says_sorted ihI.1 ihI.2.1)
      rw [hlist, List.map_map]
      have : g.mappings.list.map (Mapping.point ∘ composeMapping f inner.mappings.sort.list) =
          (g.mappings.list.map Mapping.point).map (Point.compose f ips) := by
        rw [List.map_map]
        apply List.map_congr_left
        intro m hm
        rw [he]
        exact composeMapping_point
          (fun x hx => ihI.1.valid x (inner.mappings.sort_perm.mem_iff.1 hx))
          (by rw [MappingList.sort_list ihI.2.1]; exact sortBy_sorted _) (ih.1.valid m hm)
      rw [this]
      exact ih.2.2.2.2.map _
  | @applied a r g ps a' r' inner ips file g' inner' hM hI happ ih ihI =>
    obtain ⟨f', _, _, _, _, hi⟩ := applySourceMap_ok ih.1 ihI.1 ihI.2.1 happ
    rcases hi with rfl | rfl
    · exact ⟨ihI.1, ihI.2.1, ihI.2.2.1, fun _ h => (by cases h), ihI.2.2.2.2⟩
    · exact hsort ihI

end WS
