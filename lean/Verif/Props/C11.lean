import Verif.Props.C10
/-! # C11 Reading a written map back; C23 `sourcesContent`; C32 repeated sources -/

namespace WS
open Spec

theorem filterMap_congr' {β γ : Type} {f g : β → Option γ} : ∀ {l : List β},
    (∀ x ∈ l, f x = g x) → l.filterMap f = l.filterMap g := by
  intro l
  induction l with
  | nil => intro _; rfl
  | cons a l ih =>
    intro h
    rw [List.filterMap_cons, List.filterMap_cons, h a (by simp), ih fun x hx => h x (by simp [hx])]

theorem zip_filterMap_lookup : ∀ (l : List Int) (cs : List Int), l.Nodup → cs.length ≤ l.length →
    l.filterMap (fun s => (l.zip cs).lookup s) = cs := by
  intro l
  induction l with
  | nil => intro cs _ h; exact (List.eq_nil_of_length_eq_zero (by simpa using h)).symm ▸ rfl
  | cons a l ih =>
    intro cs hnd hlen
    rw [List.nodup_cons] at hnd
    cases cs with
    | nil => simp
    | cons c cs =>
      simp only [List.zip_cons_cons]
      rw [List.filterMap_cons]
      simp only [List.lookup_cons, beq_self_eq_true]
      congr 1
      refine Eq.trans ?_ (ih cs hnd.2 (by simpa using hlen))
      apply filterMap_congr'
      intro s hs
      have : (s == a) = false := by
        simp only [beq_eq_false_iff_ne]; rintro rfl; exact hnd.1 hs
      rw [this]

/-- C11. Take any map the library wrote (numbers within 32 bits) and read it back: this succeeds;
writing again succeeds and gives the same mappings (in the same order), the same sources in the same
order and the same contents array. -/
theorem C11_roundtrip (a r : Bool) (g g' : Generator) (ps : List Point) (m : SourceMap)
    (h : Made a r g ps) (hm : g.toSourceMap = .ok (m, g')) (hsm : ∀ p ∈ ps, p.Small)
    (hss : m.sources.length ≤ 4294967296) (hns : m.names.length ≤ 4294967296)
    (file : Option Int) (root : Option Str) :
    ∃ g₂ g₃ m₂, Generator.fromSourceMap m.sources m.sourcesContent m.mappings m.names file root true
        = .ok g₂ ∧ g₂.toSourceMap = .ok (m₂, g₃) ∧
      mapPoints m₂ = mapPoints m ∧ m₂.sources = m.sources ∧ m₂.sourcesContent = m.sourcesContent := by
  have H := h.inv
  obtain ⟨m', e, hsrc, hnam, hcon, hp⟩ := Generator.toSourceMap_ok H.1 (by
    rw [MappingList.sort_list H.2.1]; exact sortBy_sorted _)
  rw [e] at hm; cases hm
  have hps : ∀ p ∈ g.mappings.sort.list.map Mapping.point, p.Small := fun p hp' =>
    hsm p ((((g.mappings.sort_perm.map _).trans H.2.2.2.2)).mem_iff.1 hp')
  have hnd : m.sources.Nodup ∧ m.names.Nodup := ⟨hsrc ▸ H.1.sources.2, hnam ▸ H.1.names.2⟩
  obtain ⟨g₂, e₂, k1, k2, k3, k4, _, _, _, k5, k6⟩ := fromSourceMap_ok (cs := m.sourcesContent) file root
    true hp hps hss hns (fun _ => hnd)
  have hid : (g.mappings.sort.list.map Mapping.point).map mappingOf = g.mappings.sort.list := by
    rw [List.map_map]
    conv => rhs; rw [← List.map_id g.mappings.sort.list]
    exact List.map_congr_left fun x hx =>
      point_mappingOf (H.1.valid x (g.mappings.sort_perm.mem_iff.1 hx))
  rw [hid] at k4
  have hsame : g₂.mappings.sort.list = g.mappings.sort.list := by
    rw [MappingList.sort_list k2, MappingList.sort_list H.2.1]
    refine sortBy_perm_eq Mapping.le_total Mapping.le_trans
      (k4.trans g.mappings.sort_perm) ?_
    intro x _ y _; exact Mapping.le_antisymm x y
  obtain ⟨m₂, e₃, hs₂, _, hc₂, hp₂⟩ := Generator.toSourceMap_ok k1 (by
    rw [MappingList.sort_list k2]; exact sortBy_sorted _)
  refine ⟨g₂, _, m₂, e₂, e₃, ?_, ?_, ?_⟩
  · rw [hp₂, hp, hsame]
  · rw [hs₂, k5 rfl]
  · rw [hc₂, k6 hnd.1]
    have : (g₂.sources.filterMap fun p => (m.sources.zip m.sourcesContent).lookup p.1) =
        (g₂.sources.map Prod.fst).filterMap fun s => (m.sources.zip m.sourcesContent).lookup s := by
      rw [List.filterMap_map]; rfl
    rw [this, k5 rfl]
    apply zip_filterMap_lookup _ _ hnd.1
    rw [hcon, hsrc]
    simpa using List.length_filterMap_le _ _

/-! ## C23 -/

/-- Effect of one `set_source_content` call on the content of `s`. -/
def Spec.contentStep (s : Int) (acc : Option Int) (c : Int × Option Int) : Option Int :=
  if c.1 = s then (match c.2 with | some x => acc.or (some x) | none => none) else acc

/-- The content registered for a source by a history of `set_source_content` calls: the first one
since the last removal. -/
def Spec.content (calls : List (Int × Option Int)) (s : Int) : Option Int :=
  calls.foldl (contentStep s) none

/-- Register contents. -/
def Spec.setAll (g : Generator) (calls : List (Int × Option Int)) : Generator :=
  calls.foldl (fun g c => g.setSourceContent c.1 c.2) g

theorem lookup_append_single {t : List (Int × Int)} {k s : Int} {c : Int} :
    (t ++ [(k, c)]).lookup s = (t.lookup s).or (if s = k then some c else none) := by
  induction t with
  | nil =>
    simp only [List.nil_append, List.lookup_cons, List.lookup_nil, Option.none_or]
    by_cases h : s = k
    · simp [h]
    · have : (s == k) = false := by simpa using h
      simp [h, this]
  | cons p t ih =>
    obtain ⟨a, b⟩ := p
    rw [List.cons_append, List.lookup_cons, List.lookup_cons]
    by_cases h : s = a
    · simp [h]
    · have : (s == a) = false := by simpa using h
      rw [this]; exact ih

theorem amRemove_lookup {t : List (Int × Int)} {k s : Int} :
    (amRemove t k).lookup s = if k = s then none else t.lookup s := by
  induction t with
  | nil => simp [amRemove]
  | cons p t ih =>
    obtain ⟨a, b⟩ := p
    unfold amRemove at ih ⊢
    rw [List.filter_cons]
    by_cases hak : a = k
    · subst hak
      simp only [bne_self_eq_false, Bool.false_eq_true, if_false]
      rw [ih]
      by_cases hs : a = s
      · simp [hs]
      · have : (s == a) = false := by simpa using fun h => hs h.symm
        simp [hs, List.lookup_cons, this]
    · have h1 : (a != k) = true := by simpa using hak
      simp only [h1, if_true]
      rw [List.lookup_cons, List.lookup_cons, ih]
      by_cases hs : s = a
      · subst hs
        have hks : k ≠ s := fun h => hak h.symm
        simp [hks]
      · have : (s == a) = false := by simpa using hs
        rw [this]

theorem setAll_lookup (s : Int) : ∀ (calls : List (Int × Option Int)) (g : Generator),
    (setAll g calls).contents.lookup s =
      calls.foldl (contentStep s) (g.contents.lookup s) := by
  intro calls
  induction calls with
  | nil => intro g; rfl
  | cons c calls ih =>
    intro g
    obtain ⟨k, v⟩ := c
    have := ih (g.setSourceContent k v)
    unfold setAll at this ⊢
    rw [List.foldl_cons, this, List.foldl_cons]
    congr 1
    unfold contentStep
    cases v with
    | none =>
      simp only [Generator.setSourceContent]
      rw [amRemove_lookup]
    | some x =>
      simp only [Generator.setSourceContent, amOrInsert]
      cases hk : g.contents.lookup k with
      | some y =>
        by_cases h : k = s
        · subst h; simp [hk]
        · simp [h]
      | none =>
        simp only
        rw [lookup_append_single]
        by_cases h : k = s
        · subst h; simp
        · have : s ≠ k := fun e => h e.symm
          simp [h, this]

theorem setAll_made (calls : List (Int × Option Int)) : ∀ (g : Generator) {ps : List Point},
    Made false false g ps → Made false false (setAll g calls) ps := by
  induction calls with
  | nil => intro g ps h; exact h
  | cons c calls ih => intro g ps h; exact ih _ (Made.setContent _ _ h)

theorem addAll_contents {ms : List Mapping} : ∀ {g g' : Generator}, addAll g ms = .ok g' →
    g'.contents = g.contents := by
  induction ms with
  | nil => intro g g' h; cases h; rfl
  | cons m ms ih =>
    intro g g' h
    rw [addAll] at h
    split at h
    · cases h
    · rename_i g₁ hg
      rw [ih h]
      unfold Generator.addMappingV at hg
      split at hg
      · cases hg
      · cases hg
        obtain ⟨gen, s, n, o⟩ := m
        cases s <;> cases n <;> rfl

theorem filterMap_prefix {β γ : Type} (f : β → Option γ) : ∀ (l : List β) (i : Nat),
    (∀ (j : Nat), j ≤ i → ∀ s, l[j]? = some s → f s ≠ none) →
    (l.filterMap f)[i]? = (l[i]?).bind f := by
  intro l
  induction l with
  | nil => intro i _; simp
  | cons a l ih =>
    intro i h
    have h0 := h 0 (Nat.zero_le _) a rfl
    cases hfa : f a with
    | none => exact absurd hfa h0
    | some b =>
      rw [List.filterMap_cons, hfa]
      cases i with
      | zero => simp [hfa]
      | succ i =>
        simp only [List.getElem?_cons_succ]
        exact ih i fun j hj s hs => h (j + 1) (by omega) s (by simpa using hs)

/-- C23, as far as it holds: `sourcesContent[i]` is the content registered for `sources[i]`, provided
every source up to and including `i` has a content. Missing: sources without content are skipped
instead of leaving a gap, so later entries slide forward (`C23_not_general`). -/
theorem C23_aligned_partial (file : Option Int) (root : Option Str) (skip : Bool)
    (calls : List (Int × Option Int)) (ms : List Mapping) (hv : ∀ m ∈ ms, m.Valid) :
    ∃ g m g', addAll (setAll (Generator.new file root skip) calls) ms = .ok g ∧
      g.toSourceMap = .ok (m, g') ∧
      ∀ i : Nat, (∀ (j : Nat), j ≤ i → ∀ s, m.sources[j]? = some s → content calls s ≠ none) →
        m.sourcesContent[i]? = (m.sources[i]?).bind (content calls) := by
  obtain ⟨g, e, hM⟩ := addAll_made (setAll_made calls _ (Made.new file root skip)) hv
  have H := hM.inv
  obtain ⟨m, e', hsrc, _, hcon, _⟩ := Generator.toSourceMap_ok H.1 (by
    rw [MappingList.sort_list H.2.1]; exact sortBy_sorted _)
  refine ⟨g, m, _, e, e', fun i hi => ?_⟩
  have hl : ∀ s, g.contents.lookup s = content calls s := by
    intro s
    rw [addAll_contents e, setAll_lookup]
    rfl
  have : m.sourcesContent = m.sources.filterMap (content calls) := by
    rw [hcon, hsrc, List.filterMap_map]
    exact filterMap_congr' fun p _ => hl p.1
  rw [this]
  exact filterMap_prefix _ _ _ hi

theorem filterMap_aligned {β γ : Type} (f : β → Option γ) : ∀ (l : List β),
    (∀ (i : Nat) c, (l.filterMap f)[i]? = some c → (l[i]?).bind f = some c) ↔
      ∀ (i j : Nat) s t, i < j → l[i]? = some s → l[j]? = some t → f t ≠ none → f s ≠ none := by
  intro l
  constructor
  · intro h i
    -- the first element without image
    suffices key : ∀ (l : List β) (i : Nat) (s : β), l[i]? = some s → f s = none →
        (∀ (j : Nat) t, j < i → l[j]? = some t → f t ≠ none) →
        (∀ (k : Nat) c, (l.filterMap f)[k]? = some c → (l[k]?).bind f = some c) →
        ∀ (j : Nat) t, i < j → l[j]? = some t → f t = none by
      intro j s t hij hs ht hft hfs
      -- take the least such place
      have least : ∃ (i₀ : Nat) (s₀ : β), i₀ ≤ i ∧ l[i₀]? = some s₀ ∧ f s₀ = none ∧
          ∀ (j : Nat) t, j < i₀ → l[j]? = some t → f t ≠ none := by
        clear hij ht hft
        induction i using Nat.strongRecOn generalizing s with
        | ind i ih =>
          by_cases hex : ∃ (j : Nat), j < i ∧ ∃ t, l[j]? = some t ∧ f t = none
          · obtain ⟨j, hj, t, ht, hft⟩ := hex
            obtain ⟨i₀, s₀, h1, h2⟩ := ih j hj t ht hft
            exact ⟨i₀, s₀, by omega, h2⟩
          · exact ⟨i, s, Nat.le_refl _, hs, hfs, fun j t hj ht hft => hex ⟨j, hj, t, ht, hft⟩⟩
      obtain ⟨i₀, s₀, h1, h2, h3, h4⟩ := least
      exact hft (key l i₀ s₀ h2 h3 h4 h j t (by omega) ht)
    intro l
    induction l with
    | nil => intro i s h; simp at h
    | cons a l ih =>
      intro i s hs hfs hlt h j t hij ht
      cases i with
      | succ i =>
        cases j with
        | zero => omega
        | succ j =>
          obtain ⟨b, hb⟩ := Option.ne_none_iff_exists'.1 (hlt 0 a (by omega) rfl)
          refine ih i s (by simpa using hs) hfs (fun k u hk hu => hlt (k + 1) u (by omega) (by simpa using hu))
            (fun k c hc => ?_) j t (by omega) (by simpa using ht)
          have := h (k + 1) c (by rw [List.filterMap_cons, hb]; simpa using hc)
          simpa using this
      | zero =>
        simp only [List.getElem?_cons_zero, Option.some.injEq] at hs
        subst hs
        cases hc : ((a :: l).filterMap f)[0]? with
        | some c =>
          have := h 0 c hc
          simp [hfs] at this
        | none =>
          have hnil : (a :: l).filterMap f = [] := by
            cases hx : (a :: l).filterMap f with
            | nil => rfl
            | cons y ys => rw [hx] at hc; simp at hc
          exact List.filterMap_eq_nil_iff.1 hnil t (List.mem_of_getElem? ht)
  · intro h i c _hc
    have : ∀ (l : List β) (i : Nat) c,
        (∀ (i j : Nat) s t, i < j → l[i]? = some s → l[j]? = some t → f t ≠ none → f s ≠ none) →
        (l.filterMap f)[i]? = some c → (l[i]?).bind f = some c := by
      clear h _hc l
      intro l
      induction l with
      | nil => intro i c _ h; simp at h
      | cons a l ih =>
        intro i c h hc
        cases ha : f a with
        | none =>
          rw [List.filterMap_cons, ha] at hc
          have hnil : l.filterMap f = [] := by
            refine List.filterMap_eq_nil_iff.2 fun t ht => ?_
            obtain ⟨j, hj⟩ := List.getElem?_of_mem ht
            cases hft : f t with
            | none => rfl
            | some y => exact absurd ha (h 0 (j + 1) a t (by omega) rfl (by simpa using hj) (by simp [hft]))
          rw [hnil] at hc; simp at hc
        | some b =>
          rw [List.filterMap_cons, ha] at hc
          cases i with
          | zero => simpa [ha] using hc
          | succ i =>
            simp only [List.getElem?_cons_succ] at hc ⊢
            exact ih i c (fun i j s t hij hs ht => h (i + 1) (j + 1) s t (by omega) (by simpa using hs)
              (by simpa using ht)) hc
    exact this l i c h _hc

/-- C23, exactly: the contents line up with the sources if and only if no source without content stands
before one with content. -/
theorem C23_exact (file : Option Int) (root : Option Str) (skip : Bool)
    (calls : List (Int × Option Int)) (ms : List Mapping) (hv : ∀ m ∈ ms, m.Valid) :
    ∃ g m g', addAll (setAll (Generator.new file root skip) calls) ms = .ok g ∧
      g.toSourceMap = .ok (m, g') ∧
      ((∀ (i : Nat) c, m.sourcesContent[i]? = some c → (m.sources[i]?).bind (content calls) = some c) ↔
        ∀ (i j : Nat) s t, i < j → m.sources[i]? = some s → m.sources[j]? = some t →
          content calls t ≠ none → content calls s ≠ none) := by
  obtain ⟨g, e, hM⟩ := addAll_made (setAll_made calls _ (Made.new file root skip)) hv
  have H := hM.inv
  obtain ⟨m, e', hsrc, _, hcon, _⟩ := Generator.toSourceMap_ok H.1 (by
    rw [MappingList.sort_list H.2.1]; exact sortBy_sorted _)
  have hl : ∀ s, g.contents.lookup s = content calls s := by
    intro s
    rw [addAll_contents e, setAll_lookup]
    rfl
  have : m.sourcesContent = m.sources.filterMap (content calls) := by
    rw [hcon, hsrc, List.filterMap_map]
    exact filterMap_congr' fun p _ => hl p.1
  refine ⟨g, m, _, e, e', ?_⟩
  rw [this]
  exact filterMap_aligned _ _

/-- The general claim of C23 fails: two sources, content only for the second one; the written map
gives that content to the first one. -/
theorem C23_not_general : ∃ g m g', addAll (setAll (Generator.new none none true) [(2, some 7)])
      [{ generated := (1, 0), source := some 1, name := none, original := some (1, 0) },
       { generated := (2, 0), source := some 2, name := none, original := some (1, 0) }] = .ok g ∧
    g.toSourceMap = .ok (m, g') ∧ m.sources = [1, 2] ∧ m.sourcesContent = [7] :=
  ⟨_, _, _, rfl, rfl, by decide +kernel, by decide +kernel⟩

/-- The hypothesis of `C23_aligned_partial` is met with every source having a content. -/
example : ∃ g m g', addAll (setAll (Generator.new none none true)
      [(2, some 7), (1, some 6), (2, some 8), (3, some 1), (3, none)])
      [{ generated := (1, 0), source := some 1, name := none, original := some (1, 0) },
       { generated := (2, 0), source := some 2, name := none, original := some (1, 0) }] = .ok g ∧
    g.toSourceMap = .ok (m, g') ∧ m.sources = [1, 2] ∧ m.sourcesContent = [6, 7] :=
  ⟨_, _, _, rfl, rfl, by decide +kernel, by decide +kernel⟩

/-! ## C32 -/

/-- C32, as far as it holds: reading a map attributes every mapping to the name its index selects,
if the reader is told not to look for repeated names, or if there are none. What the read generator
writes then says what the read map said, in generated order. Missing: with `check_dup` (which
`SourceMapSource` uses) repeated names shift the indices, see `C32_not_general`. -/
theorem C32_read_partial (ss cs ns : List Int) (s : Str) (file : Option Int) (root : Option Str)
    (cd : Bool) (ps : List Point) (hp : points ss ns s = some ps) (hsm : ∀ p ∈ ps, p.Small)
    (hss : ss.length ≤ 4294967296) (hns : ns.length ≤ 4294967296)
    (hnd : cd = true → ss.Nodup ∧ ns.Nodup) :
    ∃ g m g' qs, Generator.fromSourceMap ss cs s ns file root cd = .ok g ∧
      g.toSourceMap = .ok (m, g') ∧ mapPoints m = some qs ∧ qs.Pairwise Point.Le ∧ qs.Perm ps := by
  obtain ⟨g, e, _⟩ := fromSourceMap_ok (cs := cs) file root cd hp hsm hss hns hnd
  obtain ⟨m, g', qs, h1, h2, h3, h4⟩ :=
    C35_ordered_complete_partial _ _ g _ (Made.parse hp hsm hss hns hnd e)
  exact ⟨g, m, g', qs, e, h1, h2, h3, h4⟩

/-- A map with a repeated source: sources `[5, 5, 6]`, one mapping with source index 1 and one with
index 2. -/
def C32_mappings : Str := "ACAA,CCAA".toList

example : points [5, 5, 6] [] C32_mappings =
    some [⟨1, 0, some ⟨5, 1, 0, none⟩⟩, ⟨1, 1, some ⟨6, 1, 0, none⟩⟩] := by decide +kernel

/-- C32 fails in general: the first mapping is attributed to 6 instead of 5, and alone it would
be; with the second mapping the reader indexes out of range. -/
theorem C32_not_general :
    (∃ g m g', Generator.fromSourceMap [5, 5, 6] [] "ACAA".toList [] none none true = .ok g ∧
      g.toSourceMap = .ok (m, g') ∧ mapPoints m = some [⟨1, 0, some ⟨6, 1, 0, none⟩⟩]) ∧
    points [5, 5, 6] [] "ACAA".toList = some [⟨1, 0, some ⟨5, 1, 0, none⟩⟩] ∧
    Generator.fromSourceMap [5, 5, 6] [] C32_mappings [] none none true = .error .index := by
  refine ⟨⟨_, _, _, rfl, rfl, by decide +kernel⟩, by decide +kernel, by decide +kernel⟩

/-- C32 and C11 are about maps such as this one. -/
example : points [5, 6] [3] "ACAAA,CDEC;;EAAA".toList =
    some [⟨1, 0, some ⟨6, 1, 0, some 3⟩⟩, ⟨1, 1, some ⟨5, 3, 1, none⟩⟩, ⟨3, 2, some ⟨5, 3, 1, none⟩⟩] := by
  decide +kernel

end WS
