import Verif.Proofs.Serialize
/-! # Invariants of the generator -/

namespace WS
open Spec

/-- The tables cover the mappings, which are valid. -/
structure Generator.Ok (g : Generator) : Prop where
  sources : Table g.sources
  names : Table g.names
  valid : ∀ m ∈ g.mappings.list, m.Valid
  srcIn : ∀ m ∈ g.mappings.list, ∀ s, m.source = some s → s ∈ g.sources.map Prod.fst
  nameIn : ∀ m ∈ g.mappings.list, ∀ n, m.name = some n → n ∈ g.names.map Prod.fst

/-- The flag of the list tells the truth. -/
def MappingList.Truthful (l : MappingList) : Prop :=
  l.sorted = true → l.list.Pairwise (fun a b => Mapping.le a b = true)

/-- `last` is the greatest mapping. -/
def MappingList.LastMax (l : MappingList) : Prop :=
  match l.last with
  | some m => ∀ a ∈ l.list, Mapping.le a m = true
  | none => l.list = []

theorem MappingList.sort_list {l : MappingList} (h : l.Truthful) :
    l.sort.list = sortBy Mapping.le l.list := by
  unfold MappingList.sort
  split
  · rename_i hs
    exact (sortBy_of_pairwise _ (h hs)).symm
  · rfl

theorem MappingList.sort_sorted {l : MappingList} : l.sort.sorted = true := by
  unfold MappingList.sort
  split <;> simp_all

theorem sortBy_sorted (l : List Mapping) :
    (sortBy Mapping.le l).Pairwise (fun a b => Mapping.le a b = true) :=
  sortBy_pairwise Mapping.le_total Mapping.le_trans l

theorem MappingList.sort_truthful {l : MappingList} (h : l.Truthful) : l.sort.Truthful := by
  intro _
  rw [MappingList.sort_list h]
  exact sortBy_sorted _

theorem MappingList.sort_perm (l : MappingList) : l.sort.list.Perm l.list := by
  unfold MappingList.sort
  split
  · exact List.Perm.refl _
  · exact sortBy_perm _

theorem MappingList.sort_last (l : MappingList) : l.sort.last = l.last := by
  unfold MappingList.sort
  split <;> rfl

theorem MappingList.sort_sort (l : MappingList) : l.sort.sort = l.sort := by
  rw [MappingList.sort, if_pos MappingList.sort_sorted]

theorem MappingList.sort_lastMax {l : MappingList} (h : l.LastMax) : l.sort.LastMax := by
  unfold MappingList.LastMax at h ⊢
  rw [MappingList.sort_last]
  cases hl : l.last with
  | none =>
    rw [hl] at h
    have := l.sort_perm
    rw [h] at this
    exact this.eq_nil
  | some m =>
    rw [hl] at h
    intro a ha
    exact h a (l.sort_perm.mem_iff.1 ha)

theorem MappingList.add_list (l : MappingList) (m : Mapping) : (l.add m).list = l.list ++ [m] := by
  unfold MappingList.add
  dsimp only
  split <;> split <;> rfl

theorem MappingList.add_inv {l : MappingList} (ht : l.Truthful) (hl : l.LastMax) (m : Mapping) :
    (l.add m).Truthful ∧ (l.add m).LastMax := by
  unfold MappingList.add
  dsimp only
  cases hlast : l.last with
  | none =>
    unfold MappingList.LastMax at hl
    rw [hlast] at hl
    simp only [if_true]
    refine ⟨fun _ => by simp [hl], ?_⟩
    simp [MappingList.LastMax, hl, Mapping.le_refl]
  | some lm =>
    unfold MappingList.LastMax at hl
    rw [hlast] at hl
    simp only
    split
    · rename_i hle
      refine ⟨fun hs => ?_, ?_⟩
      · rw [List.pairwise_append]
        refine ⟨ht hs, by simp, fun a ha b hb => ?_⟩
        simp at hb; subst hb
        exact Mapping.le_trans _ _ _ (hl a ha) hle
      · simp only [MappingList.LastMax]
        intro a ha
        rw [List.mem_append] at ha
        rcases ha with ha | ha
        · exact Mapping.le_trans _ _ _ (hl a ha) hle
        · simp at ha; subst ha; exact Mapping.le_refl _
    · rename_i hle
      refine ⟨fun hs => by simp at hs, ?_⟩
      simp only [MappingList.LastMax]
      intro a ha
      rw [List.mem_append] at ha
      rcases ha with ha | ha
      · exact hl a ha
      · simp at ha; subst ha
        rcases Mapping.le_total lm a with h | h
        · exact absurd h hle
        · exact h

theorem Generator.addSource_ok {g : Generator} (h : g.Ok) (s : Int) : (g.addSource s).Ok :=
  { sources := h.sources.insert s
    names := h.names
    valid := h.valid
    srcIn := fun m hm x hx => mem_insert.2 (.inl (h.srcIn m hm x hx))
    nameIn := h.nameIn }

theorem Generator.addName_ok {g : Generator} (h : g.Ok) (n : Int) : (g.addName n).Ok :=
  { sources := h.sources
    names := h.names.insert n
    valid := h.valid
    srcIn := h.srcIn
    nameIn := fun m hm x hx => mem_insert.2 (.inl (h.nameIn m hm x hx)) }

theorem Generator.setContent_fields (g : Generator) (s : Int) (c : Option Int) :
    (g.setSourceContent s c).sources = g.sources ∧ (g.setSourceContent s c).names = g.names ∧
    (g.setSourceContent s c).mappings = g.mappings := by
  cases c <;> exact ⟨rfl, rfl, rfl⟩

theorem Generator.setContent_ok {g : Generator} (h : g.Ok) (s : Int) (c : Option Int) :
    (g.setSourceContent s c).Ok := by
  obtain ⟨h1, h2, h3⟩ := g.setContent_fields s c
  exact ⟨h1 ▸ h.1, h2 ▸ h.2, h3 ▸ h.3, by rw [h1, h3]; exact h.4, by rw [h2, h3]; exact h.5⟩

theorem Generator.new_ok (file : Option Int) (root : Option Str) (skip : Bool) :
    (Generator.new file root skip).Ok :=
  { sources := ⟨fun k p h => by simp [Generator.new] at h, by simp [Generator.new]⟩
    names := ⟨fun k p h => by simp [Generator.new] at h, by simp [Generator.new]⟩
    valid := fun m hm => by simp [Generator.new, MappingList.new] at hm
    srcIn := fun m hm => by simp [Generator.new, MappingList.new] at hm
    nameIn := fun m hm => by simp [Generator.new, MappingList.new] at hm }

theorem Generator.addMapping_mappings (g : Generator) (m : Mapping) :
    (g.addMapping m).mappings = g.mappings.add m := by
  obtain ⟨gen, s, n, o⟩ := m
  cases s <;> cases n <;> rfl

theorem Generator.addMapping_sources (g : Generator) (m : Mapping) : (g.addMapping m).sources =
    match m.source with | some s => amOrInsert g.sources s g.sources.length | none => g.sources := by
  obtain ⟨gen, s, n, o⟩ := m
  cases s <;> cases n <;> rfl

theorem Generator.addMapping_names (g : Generator) (m : Mapping) : (g.addMapping m).names =
    match m.name with | some s => amOrInsert g.names s g.names.length | none => g.names := by
  obtain ⟨gen, s, n, o⟩ := m
  cases s <;> cases n <;> rfl

theorem Generator.addMapping_ok {g : Generator} (h : g.Ok) {m : Mapping} (hm : m.Valid) :
    (g.addMapping m).Ok where
  sources := by
    rw [g.addMapping_sources]
    cases m.source
    · exact h.sources
    · exact h.sources.insert _
  names := by
    rw [g.addMapping_names]
    cases m.name
    · exact h.names
    · exact h.names.insert _
  valid := by
    rw [g.addMapping_mappings, MappingList.add_list]
    intro x hx
    rw [List.mem_append] at hx
    rcases hx with hx | hx
    · exact h.valid x hx
    · simp at hx; subst hx; exact hm
  srcIn := by
    rw [g.addMapping_mappings, MappingList.add_list, g.addMapping_sources]
    intro x hx s hs
    rw [List.mem_append] at hx
    rcases hx with hx | hx
    · have := h.srcIn x hx s hs
      cases m.source
      · exact this
      · exact mem_insert.2 (.inl this)
    · simp at hx; subst hx
      rw [hs]
      exact mem_insert.2 (.inr rfl)
  nameIn := by
    rw [g.addMapping_mappings, MappingList.add_list, g.addMapping_names]
    intro x hx s hs
    rw [List.mem_append] at hx
    rcases hx with hx | hx
    · have := h.nameIn x hx s hs
      cases m.name
      · exact this
      · exact mem_insert.2 (.inl this)
    · simp at hx; subst hx
      rw [hs]
      exact mem_insert.2 (.inr rfl)

theorem Generator.sort_ok {g : Generator} (h : g.Ok) : { g with mappings := g.mappings.sort }.Ok where
  sources := h.sources
  names := h.names
  valid := fun m hm => h.valid m (g.mappings.sort_perm.mem_iff.1 hm)
  srcIn := fun m hm => h.srcIn m (g.mappings.sort_perm.mem_iff.1 hm)
  nameIn := fun m hm => h.nameIn m (g.mappings.sort_perm.mem_iff.1 hm)

theorem sorted_lines {l : List Mapping} (h : l.Pairwise (fun a b => Mapping.le a b = true)) :
    l.Pairwise (fun a b => a.generated.1 ≤ b.generated.1) :=
  h.imp fun hab => by have := Mapping.le_generated hab; omega

theorem sorted_points {l : List Mapping} (h : l.Pairwise (fun a b => Mapping.le a b = true)) :
    (l.map Mapping.point).Pairwise Point.Le := by
  rw [List.pairwise_map]
  exact h.imp fun hab => by
    have := Mapping.le_generated hab
    simp only [Point.Le, Mapping.point]
    omega

/-- Writing succeeds and what is written says exactly the mapping list in order. -/
theorem Generator.toSourceMap_ok {g : Generator} (h : g.Ok)
    (hl : g.mappings.sort.list.Pairwise (fun a b => Mapping.le a b = true)) :
    ∃ m, g.toSourceMap = .ok (m, { g with mappings := g.mappings.sort }) ∧
      m.sources = g.sources.map Prod.fst ∧ m.names = g.names.map Prod.fst ∧
      m.sourcesContent = (g.sources.filterMap fun p => g.contents.lookup p.1) ∧
      mapPoints m = some (g.mappings.sort.list.map Mapping.point) := by
  have ho := Generator.sort_ok h
  obtain ⟨s, e, _, hp⟩ := serLoop_ok ho.sources ho.names g.mappings.sort.list {} false ho.valid
    (fun m hm => (ho.valid m hm).1) (sorted_lines hl) ho.srcIn ho.nameIn
  refine ⟨{ version := 3, sources := g.sources.map Prod.fst, names := g.names.map Prod.fst,
            mappings := s, file := g.file, sourceRoot := g.sourceRoot,
            sourcesContent := g.sources.filterMap fun p => g.contents.lookup p.1 },
    ?_, rfl, rfl, rfl, ?_⟩
  · simp only [Generator.toSourceMap, Generator.serializeMappings]
    rw [e]
  · rw [mapPoints, points_eq]
    exact hp

end WS
