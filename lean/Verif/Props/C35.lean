import Verif.Props.C80
/-! # C35 Mappings in order: exactly when -/

namespace WS
open Spec

/-- `Logged g old late seen rest`: what a history of calls left in the generator `g`. A history is *disturbed* by the
application of an inner map, and by a mapping added that is smaller (in the order of mappings,
`src/source_map/types/mapping.rs:23-42`) than one added since the last application. `rest` says that the mappings were
read (serialized or looked up) since the last disturbance; `old` are the points recorded up to the first such read, `late`
the mappings added after it; `seen` are the mappings added since the last application. -/
inductive Spec.Logged : Generator → List Point → List Mapping → List Mapping → Bool → Prop where
  | new (file : Option Int) (root : Option Str) (skip : Bool) : Logged (Generator.new file root skip) [] [] [] true
  | setContent {g old late seen rest} (s : Int) (c : Option Int) : Logged g old late seen rest →
      Logged (g.setSourceContent s c) old late seen rest
  | late {g old late seen m g'} : Logged g old late seen true → m.Valid → (∀ x ∈ seen, Mapping.le x m = true) →
      g.addMappingV m = .ok g' → Logged g' old (late ++ [m]) (seen ++ [m]) true
  | more {g old late seen m g'} : Logged g old late seen false → m.Valid → g.addMappingV m = .ok g' →
      Logged g' (old ++ [m.point]) late (seen ++ [m]) false
  | disturb {g old late seen m x g'} : Logged g old late seen true → m.Valid → x ∈ seen → Mapping.le x m = false →
      g.addMappingV m = .ok g' →
      Logged g' (old ++ late.map Mapping.point ++ [m.point]) [] (seen ++ [m]) false
  | serialize {g old late seen rest m g'} : Logged g old late seen rest → g.toSourceMap = .ok (m, g') →
      Logged g' old late seen true
  | locate {g old late seen rest} (l c : Nat) : Logged g old late seen rest →
      Logged (g.originalPositionFor l c).2 old late seen true
  | apply {g old late seen rest a r inner ips jps file f g' inner'} : Logged g old late seen rest → Made a r inner jps →
      Says inner ips → file.or inner.file = some f → g.applySourceMap inner file = .ok (g', inner') →
      Logged g' ((old ++ late.map Mapping.point).map (Point.compose f ips)) [] [] false

/-- What the list keeps. -/
structure Kept35 (l : MappingList) (old : List Point) (late seen : List Mapping) (rest : Bool) : Prop where
  flag : l.sorted = rest
  last : match l.last with
    | none => seen = []
    | some x => x ∈ seen ∧ ∀ y ∈ seen, Mapping.le y x = true
  sub : ∀ y ∈ late, y ∈ seen
  chain : late.Pairwise (fun a b => Mapping.le a b = true)
  list : ∃ L, l.list = L ++ late ∧ (L.map Mapping.point).Perm old ∧
    (rest = true → L.Pairwise (fun a b => Mapping.le a b = true))
  nolate : rest = false → late = []

theorem Kept35.sort {l : MappingList} {old : List Point} {late seen : List Mapping} {rest : Bool}
    (h : Kept35 l old late seen rest) : Kept35 l.sort old late seen true := by
  cases rest with
  | true =>
    have : l.sort = l := by rw [MappingList.sort, if_pos h.flag]
    rw [this]; exact h
  | false =>
    have e : l.sort = { l with list := sortBy Mapping.le l.list, sorted := true } := by
      rw [MappingList.sort, if_neg (by simp [h.flag])]
    obtain ⟨L, h1, h2, -⟩ := h.list
    have hl := h.nolate rfl
    subst hl
    rw [e]
    refine ⟨rfl, h.last, h.sub, h.chain, ⟨sortBy Mapping.le l.list, by simp, ?_, fun _ => sortBy_sorted _⟩,
      fun h => by cases h⟩
    rw [h1, List.append_nil]
    exact ((sortBy_perm _).map _).trans h2

/-- Whether an addition continues the last mapping. -/
theorem Kept35.upto {l : MappingList} {old : List Point} {late seen : List Mapping} {rest : Bool}
    (h : Kept35 l old late seen rest) (m : Mapping) :
    (∀ x, l.last = some x → Mapping.le x m = true) ↔ ∀ x ∈ seen, Mapping.le x m = true := by
  have hl := h.last
  cases e : l.last with
  | none => rw [e] at hl; dsimp only at hl; simp [hl]
  | some x =>
    rw [e] at hl
    simp only [Option.some.injEq, forall_eq']
    exact ⟨fun hx y hy => Mapping.le_trans _ _ _ (hl.2 y hy) hx, fun hx => hx x hl.1⟩

theorem Kept35.added {l : MappingList} {old : List Point} {late seen : List Mapping} {rest : Bool}
    (h : Kept35 l old late seen rest) (m : Mapping) (hm : ∀ x ∈ seen, Mapping.le x m = true) :
    l.add m = { l with list := l.list ++ [m], last := some m } := by
  have hx := (h.upto m).2 hm
  unfold MappingList.add
  dsimp only
  cases e : l.last with
  | none => rfl
  | some x => rw [if_pos (hx x e)]

theorem Kept35.below {l : MappingList} {old : List Point} {late seen : List Mapping} {rest : Bool}
    (h : Kept35 l old late seen rest) (m : Mapping) (hm : ¬ ∀ x ∈ seen, Mapping.le x m = true) :
    l.add m = { l with list := l.list ++ [m], sorted := false } ∧ ∃ x, l.last = some x ∧ Mapping.le m x = true := by
  have hn := mt (h.upto m).1 hm
  cases e : l.last with
  | none => exact absurd (fun x hx => by rw [e] at hx; cases hx) hn
  | some x =>
    have hx : ¬ Mapping.le x m = true := fun h => hn fun y hy => by rw [e] at hy; cases hy; exact h
    refine ⟨?_, x, rfl, (Mapping.le_total m x).resolve_right hx⟩
    unfold MappingList.add
    dsimp only
    rw [e]
    dsimp only
    rw [if_neg hx]

theorem toSourceMap_sort {g g' : Generator} {m : SourceMap} (h : g.toSourceMap = .ok (m, g')) :
    g' = { g with mappings := g.mappings.sort } := by
  unfold Generator.toSourceMap Generator.serializeMappings at h
  dsimp only at h
  split at h
  · cases h
  · rename_i x y hxy
    split at hxy
    · cases hxy; cases h; rfl
    · cases hxy

theorem addMappingV_eq {g g' : Generator} {m : Mapping} (h : g.addMappingV m = .ok g') : g' = g.addMapping m := by
  unfold Generator.addMappingV at h
  split at h
  · cases h
  · cases h; rfl

theorem last_snoc {l : MappingList} {seen : List Mapping} {m x : Mapping}
    (h : match l.last with | none => seen = [] | some x => x ∈ seen ∧ ∀ y ∈ seen, Mapping.le y x = true)
    (e : l.last = some x) (hx : Mapping.le m x = true) : x ∈ seen ++ [m] ∧ ∀ y ∈ seen ++ [m], Mapping.le y x = true := by
  rw [e] at h
  refine ⟨by simp [h.1], fun y hy => ?_⟩
  rcases List.mem_append.1 hy with hy | hy
  · exact h.2 y hy
  · simp only [List.mem_singleton] at hy; subst hy; exact hx

theorem upto_snoc {seen : List Mapping} {m : Mapping} (h : ∀ x ∈ seen, Mapping.le x m = true) :
    m ∈ seen ++ [m] ∧ ∀ y ∈ seen ++ [m], Mapping.le y m = true := by
  refine ⟨by simp, fun y hy => ?_⟩
  rcases List.mem_append.1 hy with hy | hy
  · exact h y hy
  · simp only [List.mem_singleton] at hy; subst hy; exact Mapping.le_refl _

theorem applySourceMap_last {g inner g' inner' : Generator} {file : Option Int}
    (h : g.applySourceMap inner file = .ok (g', inner')) : g'.mappings.last = none := by
  unfold Generator.applySourceMap at h
  split at h
  · cases h
  · dsimp only at h
    cases h
    rw [(foldl_setContent _ _).1, (foldl_addName _ _).1, (foldl_addSource _ _).1]
    rfl

theorem Spec.Logged.kept {g : Generator} {old : List Point} {late seen : List Mapping} {rest : Bool}
    (h : Logged g old late seen rest) : g.Ok ∧ Kept35 g.mappings old late seen rest := by
  induction h with
  | new file root skip =>
    exact ⟨Generator.new_ok _ _ _, rfl, rfl, by simp, .nil, ⟨[], rfl, .refl _, fun _ => .nil⟩, fun h => by cases h⟩
  | @setContent g _ _ _ _ s c _ ih =>
    rw [(g.setContent_fields s c).2.2]
    exact ⟨Generator.setContent_ok ih.1 s c, ih.2⟩
  | @late g old late seen m g' _ hv hm hg ih =>
    obtain ⟨ok, k⟩ := ih
    cases addMappingV_eq hg
    refine ⟨Generator.addMapping_ok ok hv, ?_⟩
    rw [Generator.addMapping_mappings, k.added m hm]
    obtain ⟨L, h1, h2, h3⟩ := k.list
    refine ⟨k.flag, upto_snoc hm, fun y hy => ?_, ?_, ⟨L, ?_, h2, h3⟩, fun h => by cases h⟩
    · rcases List.mem_append.1 hy with hy | hy
      · exact List.mem_append_left _ (k.sub y hy)
      · exact List.mem_append_right _ hy
    · rw [List.pairwise_append]
      refine ⟨k.chain, by simp, fun a ha b hb => ?_⟩
      simp only [List.mem_singleton] at hb; subst hb
      exact hm a (k.sub a ha)
    · simp [h1]
  | @more g old late seen m g' _ hv hg ih =>
    obtain ⟨ok, k⟩ := ih
    cases addMappingV_eq hg
    refine ⟨Generator.addMapping_ok ok hv, ?_⟩
    rw [Generator.addMapping_mappings]
    have hn := k.nolate rfl
    subst hn
    obtain ⟨L, h1, h2, -⟩ := k.list
    rw [List.append_nil] at h1
    have hl : ∃ L, (g.mappings.list ++ [m]) = L ++ [] ∧ (L.map Mapping.point).Perm (old ++ [m.point]) ∧
        (false = true → L.Pairwise (fun a b => Mapping.le a b = true)) :=
      ⟨L ++ [m], by simp [h1], by rw [List.map_append]; exact h2.append_right _, fun h => by cases h⟩
    by_cases hm : ∀ x ∈ seen, Mapping.le x m = true
    · rw [k.added m hm]
      exact ⟨k.flag, upto_snoc hm, by simp, .nil, hl, fun _ => rfl⟩
    · obtain ⟨e, x, hx, hle⟩ := k.below m hm
      rw [e]
      refine ⟨rfl, ?_, by simp, .nil, hl, fun _ => rfl⟩
      dsimp only
      have := last_snoc k.last hx hle
      rw [hx]; exact this
  | @disturb g old late seen m x g' _ hv hx hlt hg ih =>
    obtain ⟨ok, k⟩ := ih
    cases addMappingV_eq hg
    refine ⟨Generator.addMapping_ok ok hv, ?_⟩
    rw [Generator.addMapping_mappings]
    obtain ⟨e, y, hy, hle⟩ := k.below m (fun h => by rw [h x hx] at hlt; cases hlt)
    obtain ⟨L, h1, h2, -⟩ := k.list
    rw [e]
    refine ⟨rfl, ?_, by simp, .nil, ⟨L ++ late ++ [m], by simp [h1], ?_, fun h => by cases h⟩, fun _ => rfl⟩
    · dsimp only
      have := last_snoc k.last hy hle
      rw [hy]; exact this
    · simp only [List.map_append]
      exact (h2.append_right _).append_right _
  | serialize _ hs ih =>
    cases toSourceMap_sort hs
    exact ⟨Generator.sort_ok ih.1, ih.2.sort⟩
  | locate l c _ ih => exact ⟨Generator.sort_ok ih.1, ih.2.sort⟩
  | @apply g old late seen rest a r inner ips jps file f g' inner' _ hI hS hf happ ih =>
    obtain ⟨ok, k⟩ := ih
    obtain ⟨iok, itr, -⟩ := hI.inv
    obtain ⟨f', hf', hok, hsf, hlist, -⟩ := applySourceMap_ok ok iok itr happ
    rw [hf] at hf'; cases hf'
    have he : ips = inner.mappings.sort.list.map Mapping.point := Says.unique hS (says_sorted iok itr)
    have hmap : g.mappings.list.map (Mapping.point ∘ composeMapping f inner.mappings.sort.list) =
        (g.mappings.list.map Mapping.point).map (Point.compose f ips) := by
      rw [List.map_map]
      apply List.map_congr_left
      intro m hm
      rw [he]
      exact composeMapping_point (fun x hx => iok.valid x (inner.mappings.sort_perm.mem_iff.1 hx))
        (by rw [MappingList.sort_list itr]; exact sortBy_sorted _) (ok.valid m hm)
    obtain ⟨L, h1, h2, -⟩ := k.list
    refine ⟨hok, hsf, by rw [applySourceMap_last happ], by simp, .nil,
      ⟨g'.mappings.list, by simp, ?_, fun h => by cases h⟩, fun _ => rfl⟩
    rw [hlist, List.map_map, hmap]
    refine List.Perm.map _ ?_
    rw [h1, List.map_append]
    exact h2.append_right _

theorem serLoop_lines {ss ns : List (Int × Nat)} : ∀ (ms : List Mapping) (b : Bool) (st : SerState) (s : Str),
    serLoop ss ns b st ms = .ok s →
    (∀ m ∈ ms, st.gen.1 ≤ m.generated.1) ∧ ms.Pairwise (fun a b => a.generated.1 ≤ b.generated.1)
  | [], _, _, _, _ => by simp
  | m :: ms, b, st, s, h => by
    rw [serLoop] at h
    split at h
    · cases h
    · rename_i sep st1 e1
      split at h
      · cases h
      · rename_i fs st2 e2
        split at h
        · cases h
        · rename_i rest e3
          have k1 := serSep_gen e1
          have k2 := serFields_gen e2
          obtain ⟨k3, k4⟩ := serLoop_lines ms _ _ _ e3
          rw [List.pairwise_cons]
          simp only [List.forall_mem_cons]
          exact ⟨⟨k1.2, fun x hx => by have := k3 x hx; omega⟩, fun x hx => by have := k3 x hx; omega, k4⟩

/-- Writing succeeds if and only if the lines do not go back, and then writes the list as it is. -/
theorem toSourceMap_iff {g : Generator} (h : g.Ok) (qs : List Point) :
    (∃ m g', g.toSourceMap = .ok (m, g') ∧ mapPoints m = some qs) ↔
      g.mappings.sort.list.Pairwise (fun a b => a.generated.1 ≤ b.generated.1) ∧
      qs = g.mappings.sort.list.map Mapping.point := by
  have ho := Generator.sort_ok h
  have key : g.mappings.sort.list.Pairwise (fun a b => a.generated.1 ≤ b.generated.1) →
      ∃ m g', g.toSourceMap = .ok (m, g') ∧ mapPoints m = some (g.mappings.sort.list.map Mapping.point) := by
    intro hl
    obtain ⟨s, e, _, hp⟩ := serLoop_ok ho.sources ho.names g.mappings.sort.list {} false ho.valid
      (fun m hm => (ho.valid m hm).1) hl ho.srcIn ho.nameIn
    refine ⟨{ version := 3, sources := g.sources.map Prod.fst, names := g.names.map Prod.fst,
              mappings := s, file := g.file, sourceRoot := g.sourceRoot,
              sourcesContent := g.sources.filterMap fun p => g.contents.lookup p.1 },
      { g with mappings := g.mappings.sort }, ?_, ?_⟩
    · simp only [Generator.toSourceMap, Generator.serializeMappings]
      rw [e]
    · rw [mapPoints, points_eq]
      exact hp
  constructor
  · rintro ⟨m, g', e, hq⟩
    have hl : g.mappings.sort.list.Pairwise (fun a b => a.generated.1 ≤ b.generated.1) := by
      have e' := e
      unfold Generator.toSourceMap Generator.serializeMappings at e'
      dsimp only at e'
      cases hs : serLoop g.sources g.names false {} g.mappings.sort.list with
      | ok s => exact (serLoop_lines _ _ _ _ hs).2
      | error x => rw [hs] at e'; cases e'
    obtain ⟨m', g'', e', hq'⟩ := key hl
    rw [e] at e'; cases e'
    rw [hq] at hq'
    exact ⟨hl, Option.some.inj hq'⟩
  · rintro ⟨hl, rfl⟩
    exact key hl

/-- C35, exactly, for histories of any calls: the generator writes all recorded mappings in order if and only if no
mapping added late lies before one recorded earlier. (After a disturbance that no read followed none was added late.) -/
theorem C35_exact (g : Generator) (old : List Point) (late seen : List Mapping) (rest : Bool)
    (h : Logged g old late seen rest) :
    (∃ m g' qs, g.toSourceMap = .ok (m, g') ∧ mapPoints m = some qs ∧ qs.Pairwise Point.Le ∧
      qs.Perm (old ++ late.map Mapping.point)) ↔ ∀ p ∈ old, ∀ m ∈ late, p.Le m.point := by
  obtain ⟨ok, k⟩ := h.kept
  have k' := k.sort
  obtain ⟨L, h1, h2, h3⟩ := k'.list
  have hpts : g.mappings.sort.list.map Mapping.point = L.map Mapping.point ++ late.map Mapping.point := by
    rw [h1, List.map_append]
  constructor
  · rintro ⟨m, g', qs, e, hq, hp, -⟩ p hp' x hx
    obtain ⟨-, rfl⟩ := (toSourceMap_iff ok qs).1 ⟨m, g', e, hq⟩
    rw [hpts, List.pairwise_append] at hp
    exact hp.2.2 p (h2.mem_iff.2 hp') _ (List.mem_map_of_mem hx)
  · intro hle
    have hp : (g.mappings.sort.list.map Mapping.point).Pairwise Point.Le := by
      rw [hpts, List.pairwise_append]
      refine ⟨sorted_points (h3 rfl), sorted_points k.chain, fun p hp q hq => ?_⟩
      obtain ⟨x, hx, rfl⟩ := List.mem_map.1 hq
      exact hle p (h2.mem_iff.1 hp) x hx
    have hl : g.mappings.sort.list.Pairwise (fun a b => a.generated.1 ≤ b.generated.1) := by
      rw [List.pairwise_map] at hp
      exact hp.imp fun {a b} hab => by
        simp only [Point.Le, Mapping.point] at hab
        omega
    obtain ⟨m, g', e, hq⟩ := (toSourceMap_iff ok _).2 ⟨hl, rfl⟩
    exact ⟨m, g', _, e, hq, hp, by rw [hpts]; exact h2.append_right _⟩

/-- A history that ends in a disturbance writes in order whatever came before. -/
theorem C35_disturbed (g : Generator) (old : List Point) (late seen : List Mapping) (h : Logged g old late seen false) :
    ∃ m g' qs, g.toSourceMap = .ok (m, g') ∧ mapPoints m = some qs ∧ qs.Pairwise Point.Le ∧ qs.Perm old := by
  have hn := h.kept.2.nolate rfl
  subst hn
  obtain ⟨m, g', qs, h1, h2, h3, h4⟩ := (C35_exact g old [] seen false h).2 (by simp)
  exact ⟨m, g', qs, h1, h2, h3, by simpa using h4⟩

/-! Non-trivial cases: the history of `C35_not_general`, which is not written, and one step more, after which it is. -/

/-- The inner map that is applied. -/
def c35Inner : Generator := Generator.new none none true
/-- After the application, … -/
def c35Applied : Generator × Generator := (C35_start.applySourceMap c35Inner (some 1)).toOption.getD (C35_start, c35Inner)
/-- … after writing, … -/
def c35Written : SourceMap × Generator := c35Applied.1.toSourceMap.toOption.getD (⟨3, none, none, [], [], [], []⟩, C35_start)
/-- … after an addition before everything else, … -/
def c35Late : Generator := c35Written.2.addMapping ⟨(1, 0), some 1, none, some (5, 0)⟩
/-- … or two, the second before the first. -/
def c35Back : Generator :=
  (c35Written.2.addMapping ⟨(1, 4), some 1, none, some (5, 4)⟩).addMapping ⟨(1, 0), some 1, none, some (5, 0)⟩

theorem c35_written : Logged c35Written.2 [⟨2, 0, some ⟨1, 1, 0, none⟩⟩, ⟨3, 0, some ⟨1, 2, 0, none⟩⟩] [] [] true := by
  have h0 : Logged C35_start [] [⟨(2, 0), some 1, none, some (1, 0)⟩, ⟨(3, 0), some 1, none, some (2, 0)⟩]
      [⟨(2, 0), some 1, none, some (1, 0)⟩, ⟨(3, 0), some 1, none, some (2, 0)⟩] true :=
    .late (.late (.new none none true) (by decide) (by simp) rfl) (by decide) (by decide +kernel) rfl
  have h1 := Logged.apply (g' := c35Applied.1) (inner' := c35Applied.2) h0 (Made.new none none true)
    (ips := []) ⟨⟨3, none, none, [], [], [], []⟩, c35Inner, by decide +kernel, by decide +kernel⟩ (file := some 1) (f := 1) rfl
    (by decide +kernel)
  have h2 := h1.serialize (m := c35Written.1) (g' := c35Written.2) (by decide +kernel)
  have e : ([] ++ ([⟨(2, 0), some 1, none, some (1, 0)⟩, ⟨(3, 0), some 1, none, some (2, 0)⟩] : List Mapping).map Mapping.point).map
      (Point.compose 1 []) = [⟨2, 0, some ⟨1, 1, 0, none⟩⟩, ⟨3, 0, some ⟨1, 2, 0, none⟩⟩] := by decide +kernel
  rwa [e] at h2

example : C35_steps = .ok c35Late := by decide +kernel
example : Logged c35Late [⟨2, 0, some ⟨1, 1, 0, none⟩⟩, ⟨3, 0, some ⟨1, 2, 0, none⟩⟩] [⟨(1, 0), some 1, none, some (5, 0)⟩]
    [⟨(1, 0), some 1, none, some (5, 0)⟩] true :=
  .late c35_written (by decide) (by simp) (by decide +kernel)
example : ¬ (⟨2, 0, some ⟨1, 1, 0, none⟩⟩ : Point).Le (Mapping.point ⟨(1, 0), some 1, none, some (5, 0)⟩) := by
  simp [Point.Le, Mapping.point]
example : Logged c35Back [⟨2, 0, some ⟨1, 1, 0, none⟩⟩, ⟨3, 0, some ⟨1, 2, 0, none⟩⟩, ⟨1, 4, some ⟨1, 5, 4, none⟩⟩,
    ⟨1, 0, some ⟨1, 5, 0, none⟩⟩] []
    [⟨(1, 4), some 1, none, some (5, 4)⟩, ⟨(1, 0), some 1, none, some (5, 0)⟩] false :=
  .disturb (g' := c35Back) (m := ⟨(1, 0), some 1, none, some (5, 0)⟩) (x := ⟨(1, 4), some 1, none, some (5, 4)⟩)
    (.late (m := ⟨(1, 4), some 1, none, some (5, 4)⟩) (g' := c35Written.2.addMapping ⟨(1, 4), some 1, none, some (5, 4)⟩)
      c35_written (by decide) (by simp) (by decide +kernel)) (by decide) (by simp) (by decide +kernel) (by decide +kernel)
example : c35Back.toSourceMap.toOption.bind (fun r => mapPoints r.1) =
    some [⟨1, 0, some ⟨1, 5, 0, none⟩⟩, ⟨1, 4, some ⟨1, 5, 4, none⟩⟩, ⟨2, 0, some ⟨1, 1, 0, none⟩⟩,
      ⟨3, 0, some ⟨1, 2, 0, none⟩⟩] := by decide +kernel

end WS
