import Verif.Props.C10
import Verif.Proofs.Sms
/-! # C80 What a generator accepts and what it can write -/

namespace WS
open Spec

/-- A mapping of the format: lines count from 1; a source and an original position come together, a name only with
them. -/
def Spec.Acceptable (m : Mapping) : Prop :=
  m.generated.1 ≠ 0 ∧
  ((m.source = none ∧ m.original = none ∧ m.name = none) ∨
   ∃ s l c, m.source = some s ∧ m.original = some (l, c) ∧ l ≠ 0)

/-- A mapping that can be written: lines count from 1; a source comes with an original position. -/
def Spec.Writable (m : Mapping) : Prop := m.generated.1 ≠ 0 ∧ (m.source.isSome → m.original.isSome)

theorem validate_iff (m : Mapping) : validateMapping m = true ↔ Acceptable m := by
  obtain ⟨g, s, n, o⟩ := m
  cases o with
  | none => cases s <;> cases n <;> simp [validateMapping, Acceptable, Nat.pos_iff_ne_zero]
  | some o =>
    obtain ⟨l, c⟩ := o
    cases s with
    | none => simp [validateMapping, Acceptable]
    | some s => simp [validateMapping, Acceptable, Nat.pos_iff_ne_zero, and_comm]

theorem addMapping_skip (g : Generator) (m : Mapping) : (g.addMapping m).skipValidation = g.skipValidation := by
  unfold Generator.addMapping Generator.addSource Generator.addName
  dsimp only
  cases m.source <;> cases m.name <;> rfl

theorem addAll_validating : ∀ (ms : List Mapping) (g : Generator), g.skipValidation = false →
    ((∃ g', addAll g ms = .ok g') ↔ ∀ m ∈ ms, Acceptable m)
  | [], g, _ => by simp [addAll]
  | m :: ms, g, hg => by
    rw [addAll, Generator.addMappingV, hg]
    cases hv : validateMapping m with
    | true =>
      simp only [Bool.not_false, Bool.not_true, Bool.and_false, Bool.false_eq_true, if_false, List.forall_mem_cons]
      rw [addAll_validating ms _ ((addMapping_skip g m).trans hg)]
      exact ⟨fun h => ⟨(validate_iff m).1 hv, h⟩, fun h => h.2⟩
    | false =>
      simp only [Bool.not_false, Bool.and_self, if_true, List.forall_mem_cons]
      refine ⟨(fun ⟨_, h⟩ => by cases h), fun h => ?_⟩
      rw [(validate_iff m).2 h.1] at hv
      cases hv

theorem addAll_skipping : ∀ (ms : List Mapping) (g : Generator), g.skipValidation = true →
    addAll g ms = .ok (ms.foldl Generator.addMapping g)
  | [], _, _ => rfl
  | m :: ms, g, hg => by
    rw [addAll, Generator.addMappingV, hg]
    simp only [Bool.not_true, Bool.false_and, Bool.false_eq_true, if_false, List.foldl_cons]
    exact addAll_skipping ms _ ((addMapping_skip g m).trans hg)

/-- C80: a generator that checks its mappings refuses exactly those that are not of the format. -/
theorem C80_refuses (file : Option Int) (root : Option Str) (ms : List Mapping) :
    (∃ g, addAll (Generator.new file root false) ms = .ok g) ↔ ∀ m ∈ ms, Acceptable m :=
  addAll_validating ms _ rfl

/-- C80: one that does not check refuses none. -/
theorem C80_takes (file : Option Int) (root : Option Str) (ms : List Mapping) :
    ∃ g, addAll (Generator.new file root true) ms = .ok g := ⟨_, addAll_skipping ms _ rfl⟩

/-- The tables know what the mappings mention. -/
def Listed (g : Generator) : Prop :=
  g.mappings.Truthful ∧ g.mappings.LastMax ∧ ∀ m ∈ g.mappings.list, (∀ s, m.source = some s → (g.sources.lookup s).isSome) ∧
    (∀ n, m.name = some n → (g.names.lookup n).isSome)

theorem lookup_stays {β : Type _} {l : List (Int × β)} {k k' : Int} {v : β} (h : (l.lookup k').isSome) :
    ((amOrInsert l k v).lookup k').isSome := by
  rw [lookup_amOrInsert]
  split
  · cases l.lookup k <;> rfl
  · exact h

theorem lookup_now {β : Type _} {l : List (Int × β)} {k : Int} {v : β} : ((amOrInsert l k v).lookup k).isSome := by
  rw [lookup_amOrInsert, if_pos rfl]
  cases l.lookup k <;> rfl

theorem addMapping_listed {g : Generator} (h : Listed g) (m : Mapping) :
    Listed (g.addMapping m) ∧ (g.addMapping m).mappings.list = g.mappings.list ++ [m] := by
  obtain ⟨h1, h2, h3⟩ := h
  have e : (g.addMapping m).mappings = g.mappings.add m := by
    unfold Generator.addMapping Generator.addSource Generator.addName
    dsimp only
    cases m.source <;> cases m.name <;> rfl
  have hl : (g.addMapping m).mappings.list = g.mappings.list ++ [m] := by rw [e, MappingList.add_list]
  have inv := MappingList.add_inv h1 h2 m
  refine ⟨⟨by rw [e]; exact inv.1, by rw [e]; exact inv.2, fun x hx => ?_⟩, hl⟩
  rw [hl, List.mem_append, List.mem_singleton] at hx
  have hs : ∀ s, x.source = some s → ((g.addMapping m).sources.lookup s).isSome := by
    intro s hs
    have e : (g.addMapping m).sources = match m.source with
        | some s => amOrInsert g.sources s g.sources.length | none => g.sources := by
      unfold Generator.addMapping Generator.addSource Generator.addName
      dsimp only
      cases m.source <;> cases m.name <;> rfl
    rw [e]
    rcases hx with hx | rfl
    · have := (h3 x hx).1 s hs
      cases m.source with
      | none => exact this
      | some s' => exact lookup_stays this
    · rw [hs]; exact lookup_now
  have hn : ∀ n, x.name = some n → ((g.addMapping m).names.lookup n).isSome := by
    intro n hn
    have e : (g.addMapping m).names = match m.name with
        | some n => amOrInsert g.names n g.names.length | none => g.names := by
      unfold Generator.addMapping Generator.addSource Generator.addName
      dsimp only
      cases m.source <;> cases m.name <;> rfl
    rw [e]
    rcases hx with hx | rfl
    · have := (h3 x hx).2 n hn
      cases m.name with
      | none => exact this
      | some n' => exact lookup_stays this
    · rw [hn]; exact lookup_now
  exact ⟨hs, hn⟩

theorem addAll_listed : ∀ (ms : List Mapping) {g g' : Generator}, Listed g → addAll g ms = .ok g' →
    Listed g' ∧ g'.mappings.list = g.mappings.list ++ ms
  | [], g, g', h, e => by cases e; exact ⟨h, by simp⟩
  | m :: ms, g, g', h, e => by
    rw [addAll, Generator.addMappingV] at e
    split at e
    · cases e
    · rename_i g1 e1
      split at e1
      · cases e1
      · cases e1
        obtain ⟨h1, h2⟩ := addMapping_listed h m
        obtain ⟨h3, h4⟩ := addAll_listed ms h1 e
        exact ⟨h3, by rw [h4, h2]; simp⟩

theorem serFields_gen {ss ns : List (Int × Nat)} {st st' : SerState} {m : Mapping} {s : Str}
    (h : serFields ss ns st m = .ok (s, st')) : st'.gen.1 = st.gen.1 ∧ (m.source.isSome → m.original.isSome) := by
  unfold serFields at h
  dsimp only at h
  split at h
  · rename_i e; cases h; exact ⟨rfl, by simp [e]⟩
  · split at h
    · cases h
    · split at h
      · cases h
      · rename_i e
        split at h
        · cases h; exact ⟨rfl, by simp [e]⟩
        · split at h
          · cases h
          · cases h; exact ⟨rfl, by simp [e]⟩

theorem serSep_gen {st st' : SerState} {b : Bool} {m : Mapping} {s : Str} (h : serSep st b m = .ok (s, st')) :
    st'.gen.1 = m.generated.1 ∧ st.gen.1 ≤ m.generated.1 := by
  unfold serSep at h
  split at h
  · split at h
    · cases h
    · cases h; exact ⟨rfl, by omega⟩
  · cases h; exact ⟨by omega, by omega⟩

theorem serLoop_writable {ss ns : List (Int × Nat)} : ∀ (ms : List Mapping) (b : Bool) (st : SerState) (s : Str),
    1 ≤ st.gen.1 → serLoop ss ns b st ms = .ok s → ∀ m ∈ ms, Writable m
  | [], _, _, _, _, _ => by simp
  | m :: ms, b, st, s, hst, h => by
    rw [serLoop] at h
    split at h
    · cases h
    · rename_i sep st1 e1
      split at h
      · cases h
      · rename_i fs st2 e2
        split at h
        · cases h
        · rename_i rest e3
          have k1 := serSep_gen e1
          have k2 := serFields_gen e2
          simp only [List.forall_mem_cons]
          exact ⟨⟨by omega, k2.2⟩, serLoop_writable ms _ _ _ (by omega) e3⟩

theorem serFields_some {ss ns : List (Int × Nat)} (st : SerState) {m : Mapping} (hw : Writable m)
    (hs : ∀ s, m.source = some s → (ss.lookup s).isSome) (hn : ∀ n, m.name = some n → (ns.lookup n).isSome) :
    ∃ s st', serFields ss ns st m = .ok (s, st') := by
  unfold serFields
  dsimp only
  cases e : m.source with
  | none => exact ⟨_, _, rfl⟩
  | some s =>
    obtain ⟨si, hsi⟩ := Option.isSome_iff_exists.1 (hs s e)
    obtain ⟨⟨ol, oc⟩, ho⟩ := Option.isSome_iff_exists.1 (hw.2 (by rw [e]; rfl))
    simp only [hsi, ho]
    cases e' : m.name with
    | none => exact ⟨_, _, rfl⟩
    | some n =>
      obtain ⟨ni, hni⟩ := Option.isSome_iff_exists.1 (hn n e')
      simp only [hni]
      exact ⟨_, _, rfl⟩

theorem serLoop_writes {ss ns : List (Int × Nat)} : ∀ (ms : List Mapping) (b : Bool) (st : SerState),
    (∀ m ∈ ms, Writable m ∧ (∀ s, m.source = some s → (ss.lookup s).isSome) ∧
      ∀ n, m.name = some n → (ns.lookup n).isSome) →
    (∀ m ∈ ms, st.gen.1 ≤ m.generated.1) → ms.Pairwise (fun a b => a.generated.1 ≤ b.generated.1) →
    ∃ s, serLoop ss ns b st ms = .ok s
  | [], _, _, _, _, _ => ⟨[], rfl⟩
  | m :: ms, b, st, h, hl, hp => by
    simp only [List.forall_mem_cons] at h hl
    rw [List.pairwise_cons] at hp
    obtain ⟨sep, st1, e1⟩ : ∃ s st', serSep st b m = .ok (s, st') := by
      unfold serSep
      split
      · rw [if_neg (by omega)]; exact ⟨_, _, rfl⟩
      · exact ⟨_, _, rfl⟩
    obtain ⟨fs, st2, e2⟩ := serFields_some (ss := ss) (ns := ns) st1 h.1.1 h.1.2.1 h.1.2.2
    have k1 := serSep_gen e1
    have k2 := serFields_gen e2
    obtain ⟨rest, e3⟩ := serLoop_writes ms true st2 h.2 (fun x hx => by have := hp.1 x hx; omega) hp.2
    exact ⟨sep ++ fs ++ rest, by rw [serLoop, e1]; dsimp only; rw [e2]; dsimp only; rw [e3]⟩

/-- C80: a generator writes its map if and only if all its mappings can be written. -/
theorem C80_writes (file : Option Int) (root : Option Str) (skip : Bool) (ms : List Mapping) (g : Generator)
    (h : addAll (Generator.new file root skip) ms = .ok g) :
    (∃ m g', g.toSourceMap = .ok (m, g')) ↔ ∀ m ∈ ms, Writable m := by
  obtain ⟨⟨h1, h2, h3⟩, h4⟩ := addAll_listed ms (g := Generator.new file root skip)
    ⟨fun _ => List.Pairwise.nil, rfl, by simp [Generator.new, MappingList.new]⟩ h
  have hl : g.mappings.list = ms := by rw [h4]; rfl
  have key : (∃ m g', g.toSourceMap = .ok (m, g')) ↔
      ∃ s, serLoop g.sources g.names false {} g.mappings.sort.list = .ok s := by
    unfold Generator.toSourceMap Generator.serializeMappings
    dsimp only
    cases serLoop g.sources g.names false {} g.mappings.sort.list with
    | ok s => exact ⟨fun _ => ⟨s, rfl⟩, fun _ => ⟨_, _, rfl⟩⟩
    | error e => exact ⟨(fun ⟨_, _, h⟩ => by cases h), (fun ⟨_, h⟩ => by cases h)⟩
  have hmem : ∀ m, m ∈ g.mappings.sort.list ↔ m ∈ ms := fun m => by rw [g.mappings.sort_perm.mem_iff, hl]
  rw [key]
  constructor
  · rintro ⟨s, hs⟩ m hm
    exact serLoop_writable _ _ _ _ (Nat.le_refl 1) hs m ((hmem m).2 hm)
  · intro hw
    refine serLoop_writes _ _ _ (fun m hm => ⟨hw m ((hmem m).1 hm), h3 m (by rw [hl]; exact (hmem m).1 hm)⟩)
      (fun m hm => Nat.one_le_iff_ne_zero.2 (hw m ((hmem m).1 hm)).1) ?_
    rw [MappingList.sort_list h1]
    refine (sortBy_sorted _).imp fun {a b} h => ?_
    have := Mapping.le_generated h
    omega

/-- C80: what a checking generator took, it writes. -/
theorem C80_checked (file : Option Int) (root : Option Str) (ms : List Mapping) (g : Generator)
    (h : addAll (Generator.new file root false) ms = .ok g) : ∃ m g', g.toSourceMap = .ok (m, g') := by
  rw [C80_writes file root false ms g h]
  intro m hm
  obtain ⟨h1, h2⟩ := (C80_refuses file root ms).1 ⟨g, h⟩ m hm
  refine ⟨h1, ?_⟩
  rcases h2 with ⟨a, _, _⟩ | ⟨s, l, c, _, b, _⟩
  · simp [a]
  · simp [b]

/-! Non-trivial cases. -/

/-- A source without an original position, a name without a source, an original line 0. -/
def c80Odd : List Mapping :=
  [⟨(1, 0), some 3, none, none⟩, ⟨(1, 0), none, some 4, none⟩, ⟨(1, 0), some 3, none, some (0, 0)⟩, ⟨(0, 0), none, none, none⟩]

example : (∀ m ∈ C10_ms, m ∉ c80Odd) ∧ (addAll (Generator.new none none false) C10_ms).toOption.isSome := by decide +kernel
example : c80Odd.map (fun m => (addAll (Generator.new none none false) [m]).toOption.isSome) =
    [false, false, false, false] := by decide +kernel
example : c80Odd.map (fun m => ((addAll (Generator.new none none true) (C10_ms ++ [m])).toOption.map
    fun g => g.toSourceMap.toOption.isSome)) = [some false, some true, some true, some false] := by decide +kernel

end WS
