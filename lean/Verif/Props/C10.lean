import Verif.Proofs.Apply
/-! # C10 Serialized mappings decode to exactly the recorded mappings; C35 order; C22 indices -/

namespace WS
open Spec

/-- Add mappings one after the other. -/
def Spec.addAll : Generator → List Mapping → M Generator
  | g, [] => .ok g
  | g, m :: ms =>
    match g.addMappingV m with
    | .error e => .error e
    | .ok g => addAll g ms

/-- C35, for histories in which nothing is added after an application followed by a read: writing
succeeds, the written mappings are ordered by generated position and are exactly the recorded ones.
Missing for the full claim: see `C35_not_general`. -/
theorem C35_ordered_complete_partial (a r : Bool) (g : Generator) (ps : List Point)
    (h : Made a r g ps) :
    ∃ m g' qs, g.toSourceMap = .ok (m, g') ∧ mapPoints m = some qs ∧
      qs.Pairwise Point.Le ∧ qs.Perm ps := by
  have H := h.inv
  have hs : g.mappings.sort.list.Pairwise (fun a b => Mapping.le a b = true) := by
    rw [MappingList.sort_list H.2.1]; exact sortBy_sorted _
  obtain ⟨m, e, _, _, _, hp⟩ := Generator.toSourceMap_ok H.1 hs
  exact ⟨m, _, _, e, hp, sorted_points hs, (g.mappings.sort_perm.map _).trans H.2.2.2.2⟩

/-- C22 for generators: tables without duplicates, and every index of the mappings string is valid
(`mapPoints` fails otherwise). -/
theorem C22_generator (a r : Bool) (g g' : Generator) (ps : List Point) (m : SourceMap)
    (h : Made a r g ps) (hm : g.toSourceMap = .ok (m, g')) :
    m.sources.Nodup ∧ m.names.Nodup ∧ (mapPoints m).isSome = true := by
  have H := h.inv
  obtain ⟨m', e, h1, h2, _, hp⟩ := Generator.toSourceMap_ok H.1 (by
    rw [MappingList.sort_list H.2.1]; exact sortBy_sorted _)
  rw [e] at hm; cases hm
  exact ⟨h1 ▸ H.1.sources.2, h2 ▸ H.1.names.2, by rw [hp]; rfl⟩

theorem valid_validate {m : Mapping} (h : m.Valid) : validateMapping m = true := by
  obtain ⟨g, s, n, o⟩ := m
  obtain ⟨h1, h2⟩ := h
  cases s <;> cases o <;> simp_all [validateMapping] <;> omega

theorem addMappingV_ok {g : Generator} {m : Mapping} (h : m.Valid) :
    g.addMappingV m = .ok (g.addMapping m) := by
  unfold Generator.addMappingV
  rw [valid_validate h]
  simp

theorem addAll_made {ms : List Mapping} : ∀ {g : Generator} {ps : List Point},
    Made false false g ps → (∀ m ∈ ms, m.Valid) →
    ∃ g', addAll g ms = .ok g' ∧ Made false false g' (ps ++ ms.map Mapping.point) := by
  induction ms with
  | nil => intro g ps h _; exact ⟨g, rfl, by simpa using h⟩
  | cons m ms ih =>
    intro g ps h hv
    have e := addMappingV_ok (g := g) (hv m (by simp))
    obtain ⟨g', e', h'⟩ := ih (Made.add h (by simp) (hv m (by simp)) e) (fun x hx => hv x (by simp [hx]))
    exact ⟨g', by rw [addAll, e]; exact e', by simpa using h'⟩

/-- C10. Every list of valid mappings can be added to a new generator and written; the written map
decodes, and says exactly the added mappings, ordered by generated position. -/
theorem C10_roundtrip (file : Option Int) (root : Option Str) (skip : Bool) (ms : List Mapping)
    (hv : ∀ m ∈ ms, m.Valid) :
    ∃ g m g' qs, addAll (Generator.new file root skip) ms = .ok g ∧ g.toSourceMap = .ok (m, g') ∧
      mapPoints m = some qs ∧ qs.Perm (ms.map Mapping.point) ∧ qs.Pairwise Point.Le := by
  obtain ⟨g, e, hM⟩ := addAll_made (Made.new file root skip) hv
  obtain ⟨m, g', qs, e', hp, ho, hperm⟩ := C35_ordered_complete_partial _ _ g _ hM
  exact ⟨g, m, g', qs, e, e', hp, by simpa using hperm, ho⟩

/-- Positions strictly increase. -/
def Spec.Point.Lt (p q : Point) : Prop := p.line < q.line ∨ (p.line = q.line ∧ p.col < q.col)

theorem eq_of_perm_of_lt : ∀ {ps qs : List Point}, qs.Perm ps → ps.Pairwise Point.Lt →
    qs.Pairwise Point.Le → qs = ps := by
  intro ps
  induction ps with
  | nil => intro qs h _ _; exact h.eq_nil
  | cons p ps ih =>
    intro qs hperm hlt hle
    rw [List.pairwise_cons] at hlt
    cases qs with
    | nil => exact hperm.symm.eq_nil.symm
    | cons q qs =>
      rw [List.pairwise_cons] at hle
      have hq : q ∈ p :: ps := hperm.mem_iff.1 (by simp)
      have hp : p ∈ q :: qs := hperm.mem_iff.2 (by simp)
      have : q = p := by
        rcases List.mem_cons.1 hq with h | h
        · exact h
        · rcases List.mem_cons.1 hp with h' | h'
          · exact h'.symm
          · have h1 := hlt.1 q h
            have h2 := hle.1 p h'
            simp only [Point.Lt, Point.Le] at h1 h2
            omega
      subst this
      rw [ih (List.Perm.cons_inv hperm) hlt.2 hle.2]

/-- C10: mappings added in generated order come back in exactly that order. -/
theorem C10_in_order (file : Option Int) (root : Option Str) (skip : Bool) (ms : List Mapping)
    (hv : ∀ m ∈ ms, m.Valid) (ho : (ms.map Mapping.point).Pairwise Point.Lt) :
    ∃ g m g', addAll (Generator.new file root skip) ms = .ok g ∧ g.toSourceMap = .ok (m, g') ∧
      mapPoints m = some (ms.map Mapping.point) := by
  obtain ⟨g, m, g', qs, e, e', hp, hperm, hle⟩ := C10_roundtrip file root skip ms hv
  rw [eq_of_perm_of_lt hperm ho hle] at hp
  exact ⟨g, m, g', e, e', hp⟩

/-! Non-trivial cases, and the failure of C35 in general. -/

/-- Mappings out of order, on several lines, with names, without source, two at one position. -/
def C10_ms : List Mapping :=
  [{ generated := (2, 5), source := some 4, name := some 9, original := some (3, 1) },
   { generated := (1, 0), source := some 2, name := none, original := some (7, 20) },
   { generated := (1, 4), source := none, name := none, original := none },
   { generated := (4, 1), source := some 4, name := some 3, original := some (1, 0) },
   { generated := (4, 1), source := some 2, name := some 9, original := some (1, 1) }]

example : ∀ m ∈ C10_ms, m.Valid := by decide
example : (match addAll (Generator.new none none false) C10_ms with
    | .ok g => (match g.toSourceMap with
      | .ok (m, _) => mapPoints m
      | .error _ => none)
    | .error _ => none) = some [⟨1, 0, some ⟨2, 7, 20, none⟩⟩, ⟨1, 4, none⟩,
        ⟨2, 5, some ⟨4, 3, 1, some 9⟩⟩, ⟨4, 1, some ⟨2, 1, 1, some 9⟩⟩,
        ⟨4, 1, some ⟨4, 1, 0, some 3⟩⟩] := by decide +kernel

/-- A generator with two lines of mappings … -/
def C35_start : Generator := ((Generator.new none none true).addMapping
    { generated := (2, 0), source := some 1, name := none, original := some (1, 0) }).addMapping
    { generated := (3, 0), source := some 1, name := none, original := some (2, 0) }
/-- … to which an inner map is applied, which is then written and gets one more mapping. -/
def C35_steps : M Generator :=
  match C35_start.applySourceMap (Generator.new none none true) (some 1) with
  | .error e => .error e
  | .ok (g, _) =>
    match g.toSourceMap with
    | .error e => .error e
    | .ok (_, g) => g.addMappingV
      { generated := (1, 0), source := some 1, name := none, original := some (5, 0) }

/-- C35 fails in general: after an application and a read, an out-of-order addition goes unnoticed
and the next write runs out of range. -/
theorem C35_not_general : ∃ g, C35_steps = .ok g ∧ g.toSourceMap = .error .overflow := by
  have h : (match C35_steps with
    | .ok g => decide (g.toSourceMap = .error .overflow) | .error _ => false) = true := by
    decide +kernel
  cases hs : C35_steps with
  | error e => rw [hs] at h; cases h
  | ok g => rw [hs] at h; exact ⟨g, rfl, by simpa using h⟩

end WS
