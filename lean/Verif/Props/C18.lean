import Verif.Props.C10
/-! # C18 Applying an inner map composes the two maps; C19 position lookup -/

namespace WS
open Spec

/-- C19. In a generator made through its API, `original_position_for(line, col)` returns a recorded
mapping of that line with the greatest column not after `col`, or the empty mapping if there is
none. -/
theorem C19_closest (a r : Bool) (g : Generator) (ps : List Point) (h : Made a r g ps)
    (line col : Nat) :
    let m := (g.originalPositionFor line col).1
    (m.point ∈ ps ∧ m.generated.1 = line ∧ m.generated.2 ≤ col ∧
      ∀ p ∈ ps, p.line = line → p.col ≤ col → p.col ≤ m.generated.2) ∨
    (m = emptyMapping ∧ ∀ p ∈ ps, p.line = line → col < p.col) := by
  have H := h.inv
  have hs : g.mappings.sort.list.Pairwise (fun a b => Mapping.le a b = true) := by
    rw [MappingList.sort_list H.2.1]; exact sortBy_sorted _
  have hperm : (g.mappings.sort.list.map Mapping.point).Perm ps :=
    (g.mappings.sort_perm.map _).trans H.2.2.2.2
  intro m₀
  have hm₀ : m₀ = originalPositionIn g.mappings.sort.list line col := rfl
  clear_value m₀
  rw [originalPositionIn_eq _ hs] at hm₀
  generalize g.mappings.sort.list = l at hs hperm hm₀
  have hmem : ∀ p, p ∈ ps ↔ ∃ m ∈ l, m.point = p := by
    intro p; rw [← hperm.mem_iff, List.mem_map]
  -- elements after the last one of the filter are greater
  generalize hF : (l.filter fun m => decide (m.generated.1 < line ∨ (m.generated.1 = line ∧ m.generated.2 ≤ col))) = F
  have hFmem : ∀ m, m ∈ F ↔ m ∈ l ∧ (m.generated.1 < line ∨ (m.generated.1 = line ∧ m.generated.2 ≤ col)) := by
    intro m; rw [← hF, List.mem_filter]; simp
  have hFs : F.Pairwise (fun a b => Mapping.le a b = true) := hF ▸ hs.filter _
  rw [hF] at hm₀
  cases hlast : F.getLast? with
  | none =>
    rw [hlast] at hm₀; subst hm₀
    right
    refine ⟨rfl, fun p hp hl => ?_⟩
    have : F = [] := by simpa using hlast
    obtain ⟨m, hm, rfl⟩ := (hmem p).1 hp
    have := mt (hFmem m).2 (by rw [this]; simp)
    simp only [Mapping.point] at hl ⊢
    simp only [hm, true_and] at this
    omega
  | some m =>
    have hmF : m ∈ F := List.mem_of_getLast? hlast
    have hmax : ∀ x ∈ F, Mapping.le x m = true := by
      obtain ⟨F', rfl⟩ := List.getLast?_eq_some_iff.1 hlast
      rw [List.pairwise_append] at hFs
      intro x hx
      rw [List.mem_append] at hx
      rcases hx with hx | hx
      · exact hFs.2.2 x hx m (by simp)
      · simp at hx; subst hx; exact Mapping.le_refl _
    rw [hlast, Option.bind_some] at hm₀
    by_cases hl : m.generated.1 = line
    · left
      rw [if_pos hl, Option.getD_some] at hm₀; subst hm₀
      refine ⟨(hmem _).2 ⟨m₀, ((hFmem m₀).1 hmF).1, rfl⟩, hl, ?_, fun p hp hpl hpc => ?_⟩
      · have := ((hFmem m₀).1 hmF).2
        omega
      · obtain ⟨x, hx, rfl⟩ := (hmem p).1 hp
        simp only [Mapping.point] at hpl hpc ⊢
        have := Mapping.le_generated (hmax x ((hFmem x).2 ⟨hx, by omega⟩))
        omega
    · right
      rw [if_neg hl] at hm₀; subst hm₀
      refine ⟨rfl, fun p hp hpl => ?_⟩
      obtain ⟨x, hx, rfl⟩ := (hmem p).1 hp
      simp only [Mapping.point] at hpl ⊢
      apply Decidable.byContradiction
      intro hlt
      have h1 := Mapping.le_generated (hmax x ((hFmem x).2 ⟨hx, by omega⟩))
      have h2 := ((hFmem m).1 hmF).2
      omega

theorem pointAt_map (f : Point → Point) (hf : ∀ p, (f p).line = p.line ∧ (f p).col = p.col)
    (ps : List Point) (l c : Nat) : pointAt (ps.map f) l c = (pointAt ps l c).map f := by
  induction ps with
  | nil => rfl
  | cons p ps ih =>
    rw [List.map_cons, pointAt, pointAt, ih]
    cases pointAt ps l c with
    | some q => rfl
    | none =>
      simp only [Option.map_none, (hf p).1, (hf p).2]
      split <;> rfl

/-- C18. After applying an inner map, the written map says exactly what composing says: every
recorded point keeps its position, and its origin is composed with the inner map. -/
theorem C18_composes (a r a' r' : Bool) (g inner g' inner' : Generator)
    (ps jps ips : List Point) (file : Option Int) (f : Int) (hg : Made a r g ps)
    (hi : Made a' r' inner jps) (hsi : Says inner ips) (hf : file.or inner.file = some f)
    (happ : g.applySourceMap inner file = .ok (g', inner')) :
    ∃ qs, Says g' qs ∧ qs.Perm (ps.map (Point.compose f ips)) ∧ qs.Pairwise Point.Le := by
  obtain ⟨m, g'', qs, e, hp, ho, hperm⟩ :=
    C35_ordered_complete_partial _ _ g' _ (Made.apply hg hi hsi hf happ)
  exact ⟨qs, ⟨m, g'', e, hp⟩, hperm, ho⟩

/-- C18 as lookup: if no two mappings of the outer map share a generated position, looking any
position up in the new map gives the composition of what the old maps say. -/
theorem C18_lookup (a r a' r' : Bool) (g inner g' inner' : Generator)
    (ps jps qs ips qs' : List Point) (file : Option Int) (f : Int) (hg : Made a r g ps)
    (hi : Made a' r' inner jps) (hsg : Says g qs) (hsi : Says inner ips)
    (hf : file.or inner.file = some f)
    (happ : g.applySourceMap inner file = .ok (g', inner')) (hsg' : Says g' qs')
    (hdist : qs.Pairwise Point.Lt) (l c : Nat) :
    lookup qs' l c = (lookup qs l c).map (compose f ips) := by
  obtain ⟨m, g1, q, e, hp, ho, hperm⟩ := C35_ordered_complete_partial _ _ g _ hg
  have : q = qs := Says.unique ⟨m, g1, e, hp⟩ hsg
  subst this
  obtain ⟨q', hs', hperm', ho'⟩ := C18_composes a r a' r' g inner g' inner' ps jps ips file f hg hi hsi hf happ
  have : q' = qs' := Says.unique hs' hsg'
  subst this
  have heq : q' = q.map (Point.compose f ips) := by
    apply eq_of_perm_of_lt (hperm'.trans (hperm.symm.map _)) _ ho'
    rw [List.pairwise_map]
    exact hdist
  rw [heq, lookup, pointAt_map (Point.compose f ips) (fun p => ⟨rfl, rfl⟩), lookup]
  cases pointAt q l c with
  | none => rfl
  | some p => rfl

/-- The application itself never traps, unless neither a file is given nor the inner map names
one. -/
theorem C18_total (g inner : Generator) (file : Option Int) :
    (g.applySourceMap inner file).isOk = (file.or inner.file).isSome := by
  unfold Generator.applySourceMap
  cases file.or inner.file <;> rfl

/-! Non-trivial case. -/

/-- Mappings of two files … -/
def C18_ms : List Mapping :=
  [{ generated := (1, 0), source := some 1, name := some 7, original := some (1, 0) },
   { generated := (1, 5), source := some 2, name := some 8, original := some (1, 3) },
   { generated := (1, 9), source := some 2, name := none, original := some (9, 9) }]
/-- … and of an inner map. -/
def C18_ims : List Mapping :=
  [{ generated := (1, 1), source := some 3, name := none, original := some (40, 2) },
   { generated := (1, 8), source := some 3, name := none, original := some (41, 2) }]
/-- An outer map of two files. -/
def C18_outer : Generator := C18_ms.foldl Generator.addMapping (Generator.new none none true)
/-- An inner map of file 2. -/
def C18_inner : Generator := C18_ims.foldl Generator.addMapping (Generator.new (some 2) none true)

example : Made false false C18_outer (C18_ms.map Mapping.point) := by
  obtain ⟨g, e, h⟩ := addAll_made (ms := C18_ms) (Made.new none none true) (by decide)
  have : g = C18_outer := by cases e; rfl
  subst this; simpa using h
example : Made false false C18_inner (C18_ims.map Mapping.point) := by
  obtain ⟨g, e, h⟩ := addAll_made (ms := C18_ims) (Made.new (some 2) none true) (by decide)
  have : g = C18_inner := by cases e; rfl
  subst this; simpa using h
example : (match C18_outer.applySourceMap C18_inner none with
    | .ok (g, _) => (match g.toSourceMap with
      | .ok (m, _) => mapPoints m
      | .error _ => none)
    | .error _ => none) =
  some [⟨1, 0, some ⟨1, 1, 0, some 7⟩⟩, ⟨1, 5, some ⟨3, 40, 2, some 8⟩⟩,
    ⟨1, 9, some ⟨2, 9, 9, none⟩⟩] := by decide +kernel
example : ((C18_outer.originalPositionFor 1 8).1).generated = (1, 5) := by decide +kernel

end WS
