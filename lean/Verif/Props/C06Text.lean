import Verif.Proofs.Sim
import Verif.Props.C06
import Verif.Props.C09
import Verif.Props.C33
/-! # C06 The text beside the maps

Reads do change maps (C40). The text `sourceAndMap()` returns with column-level maps does not depend
on them; the text returned with line-level maps does, in one case. -/

namespace WS
open Spec

/-- Whether `node()` answers: the maps that are needed can be parsed. -/
theorem Sms.node_answers_iff (s : Sms) : (∃ r, s.node = .ok r) ↔
    (∃ r, s.map.getGen = .ok r) ∧ ∀ ih, s.inner = some ih → ∃ r, ih.getGen = .ok r := by
  constructor
  · rintro ⟨⟨n, s'⟩, h⟩
    obtain ⟨g, map, hg, ⟨hi, _⟩ | ⟨ih, ig, ih', _, _, hi, hig, _⟩⟩ := Sms.node_ok h
    · exact ⟨⟨_, hg⟩, fun ih e => by rw [hi] at e; cases e⟩
    · exact ⟨⟨_, hg⟩, fun ih e => by rw [hi] at e; cases e; exact ⟨_, hig⟩⟩
  · rintro ⟨⟨⟨g, map⟩, hg⟩, hi⟩
    unfold Sms.node
    rw [hg]
    dsimp only
    cases hin : s.inner with
    | none =>
      obtain ⟨n, e, _⟩ := fromString_text s.value g
      simp only [e]
      exact ⟨_, rfl⟩
    | some ih =>
      obtain ⟨⟨ig, ih'⟩, hig⟩ := hi ih hin
      simp only [hig]
      cases s.innerApplied with
      | true =>
        simp only [if_true]
        obtain ⟨n, e, _⟩ := fromString_text s.value
          (if s.original.isSome = true then g.setSourceContent s.name s.original else g)
        simp only [e]
        exact ⟨_, rfl⟩
      | false =>
        simp only [Bool.false_eq_true, if_false]
        generalize (if s.original.isSome = true then g.setSourceContent s.name s.original else g) = g'
        obtain ⟨⟨g2, ig2⟩, e2⟩ : ∃ r, g'.applySourceMap ig (some s.name) = .ok r := ⟨_, rfl⟩
        simp only [e2]
        obtain ⟨n, e, _⟩ := fromString_text s.value g2
        simp only [e]
        exact ⟨_, rfl⟩

/-- Reads do not change whether `node()` answers. -/
theorem Sms.Reads.node_answers {s₀ s : Sms} (h : Sms.Reads s₀ s) :
    (∃ r, s.node = .ok r) ↔ ∃ r, s₀.node = .ok r := by
  induction h with
  | refl => exact Iff.rfl
  | @node s s' n _ e ih =>
    rw [← ih]
    exact ⟨fun _ => ⟨_, e⟩, fun _ => ⟨_, Sms.node_idem e⟩⟩
  | @listMap s s' b m _ e ih =>
    rw [← ih, Sms.node_answers_iff, Sms.node_answers_iff]
    unfold Sms.listMap at e
    split at e
    · cases e; exact Iff.rfl
    · split at e
      · cases e
      · rename_i d map hd
        split at e
        · cases e
        · cases e
          have : (∃ r, map.getGen = .ok r) ↔ ∃ r, s.map.getGen = .ok r := by
            unfold SmHolder.getData at hd
            split at hd
            · cases hd; exact Iff.rfl
            · split at hd
              · cases hd
              · rename_i g hg
                split at hd
                · cases hd
                · cases hd
                  exact ⟨fun _ => ⟨_, getGen_of_gen hg⟩, fun _ => ⟨_, getGen_of_gen rfl⟩⟩
          exact and_congr this Iff.rfl

theorem columns_of_answer {A : AHeap} {h₁ h₂ : Heap} (V : A.Valid) (H₁ : Abs A h₁) (H₂ : Abs A h₂) {i : Nat}
    {module_ : Bool} {file : Option Int} {r : StringWithSourceMap × Heap}
    (e : apiSourceAndMap h₁ i true module_ file = .ok r) :
    ∃ r', apiSourceAndMap h₂ i true module_ file = .ok r' ∧ r'.1.source = r.1.source := by
  unfold apiSourceAndMap at e ⊢
  rw [if_pos rfl] at e ⊢
  split at e
  · cases e
  · rename_i n h' e1
    obtain ⟨t, hs, ht⟩ := hNode_seen A true module_ _ _ _ _ _ _ H₁ e1
    have hso := seen_node_sound (Q := Sms.NodeSafe) (by
      intro s₀ s hr hs s' hr'
      obtain ⟨⟨n, q⟩, hq⟩ := hr'.node_answers.2 (hr.node_answers.1 hs)
      exact ⟨n, q, hq⟩) hs ht
    obtain ⟨u, hu⟩ := unfolds_of_acc V hso.acc hso.lt
    have g : Going A (budget h₂) [] u.depth := by rw [budget, ← H₂.1]; exact Going.start A _
    obtain ⟨n2, h2, e2, _⟩ := hNode_answers true module_ hso u hu (budget h₂) [] h₂ g H₂
    obtain ⟨t2, hs2, ht2⟩ := hNode_seen A true module_ _ _ _ _ _ _ H₂ e2
    obtain ⟨_, _, hsim⟩ := hs2.sim hs ht2 ht
    rw [apiNode, e2]
    dsimp only
    obtain ⟨r2, er2⟩ := n2.rendered file none
    rw [er2]
    refine ⟨_, rfl, ?_⟩
    split at e
    · cases e
    · rename_i r1 er1
      cases e
      dsimp only
      rw [C09_text _ _ _ _ er1, C09_text _ _ _ _ er2]
      exact hsim.text

/-- C06 for `sourceAndMap()` with column-level maps, without any assumption on the maps given to
`SourceMapSource`s: two histories that differ only in the reads they contain leave every object
returning the same text, or trapping alike. -/
theorem C06_columns (ops₁ ops₂ : List Op) (h₁ h₂ : Heap) (hsame : writes ops₁ = writes ops₂)
    (hrun₁ : run ops₁ = .ok h₁) (hrun₂ : run ops₂ = .ok h₂) (i : Nat) (module_ : Bool)
    (file : Option Int) :
    (apiSourceAndMap h₁ i true module_ file).toOption.map (·.1.source) =
      (apiSourceAndMap h₂ i true module_ file).toOption.map (·.1.source) := by
  obtain ⟨A, hA, H₁⟩ := run_abs hrun₁
  obtain ⟨B, hB, H₂⟩ := run_abs hrun₂
  rw [← stepAll_filter] at hA hB
  unfold writes at hsame
  rw [hsame] at hA
  have V := stepAll_valid (A := []) (by intro i a h; simp at h) _ hA
  rw [hA] at hB; cases hB
  cases e₁ : apiSourceAndMap h₁ i true module_ file with
  | ok r =>
    obtain ⟨r', e₂, hr⟩ := columns_of_answer V H₁ H₂ e₁
    rw [e₂]
    simp [Except.toOption, hr]
  | error x =>
    cases e₂ : apiSourceAndMap h₂ i true module_ file with
    | error y => rfl
    | ok r =>
      obtain ⟨r', e, _⟩ := columns_of_answer V H₂ H₁ e₂
      rw [e₁] at e; cases e

/-! ## Line-level maps -/

/-- The line-level maps of a `SourceMapSource` do not depend on earlier reads if the map was given
as data or there is no inner map, or if `module` is off. -/
theorem Sms.steady {s₀ s : Sms} {mod : Bool}
    (hs : s₀.map.data.isSome = true ∨ s₀.inner = none ∨ mod = false) (hr : Sms.Reads s₀ s) :
    (s.listMap mod).map Prod.fst = (s₀.listMap mod).map Prod.fst := by
  have inv : s.value = s₀.value ∧ s.name = s₀.name ∧ s.valueIdx = s₀.valueIdx ∧
      ((s₀.map.data.isSome = true ∨ s₀.inner = none) →
        s.inner.isSome = s₀.inner.isSome ∧ s.map.getData.map Prod.fst = s₀.map.getData.map Prod.fst ∧
        (s.map.data.isSome = true ∨ s.inner = none)) := by
    clear hs
    induction hr with
    | refl => exact ⟨rfl, rfl, rfl, fun h => ⟨rfl, rfl, h⟩⟩
    | @node s s' n _ e ih =>
      obtain ⟨h1, h2, h3, h4⟩ := ih
      have hv := Sms.node_value e
      obtain ⟨hd, hn, hvi⟩ := Sms.node_data e
      refine ⟨hv.trans h1, hn.trans h2, hvi.trans h3, ?_⟩
      intro h
      obtain ⟨k1, k2, k3⟩ := h4 h
      have hin : s'.inner.isSome = s.inner.isSome := by
        obtain ⟨g, map, _, ⟨hi, _, rfl⟩ | ⟨_, _, _, _, _, hi, _, _, _, rfl⟩⟩ := Sms.node_ok e
        · rfl
        · simp [hi]
      refine ⟨hin.trans k1, ?_, ?_⟩
      · rw [← k2]
        cases hsd : s.map.data with
        | some d =>
          rw [getData_of_data hsd, getData_of_data (hd.trans hsd)]; rfl
        | none =>
          rw [hsd] at k3
          have hi : s.inner = none := k3.resolve_left (by simp)
          obtain ⟨g, map, hg, ⟨_, _, rfl⟩ | ⟨_, _, _, _, _, hi', _⟩⟩ := Sms.node_ok e
          · have : map = s.map := by
              unfold SmHolder.getGen at hg
              rw [hsd] at hg
              cases hgen : s.map.gen with
              | some g => rw [hgen] at hg; cases hg; rfl
              | none => rw [hgen] at hg; cases hg
            rw [this]
          · rw [hi] at hi'; cases hi'
      · rcases k3 with k3 | k3
        · exact .inl (by rw [hd]; exact k3)
        · exact .inr (by rw [k3] at hin; simpa using hin)
    | @listMap s s' b m _ e ih =>
      obtain ⟨h1, h2, h3, h4⟩ := ih
      unfold Sms.listMap at e
      split at e
      · cases e; exact ⟨h1, h2, h3, h4⟩
      · split at e
        · cases e
        · rename_i d map hd
          split at e
          · cases e
          · cases e
            refine ⟨h1, h2, h3, ?_⟩
            intro h
            obtain ⟨k1, k2, k3⟩ := h4 h
            have hdat : map.data = some d := by
              unfold SmHolder.getData at hd
              split at hd
              · rename_i d' hd'; cases hd; exact hd'
              · split at hd
                · cases hd
                · split at hd
                  · cases hd
                  · cases hd; rfl
            refine ⟨k1, ?_, .inl (by simp [hdat])⟩
            rw [← k2, hd, getData_of_data hdat]
  obtain ⟨h1, h2, h3, h4⟩ := inv
  unfold Sms.listMap
  rw [h1, h2, h3]
  cases mod with
  | false => rfl
  | true =>
    obtain ⟨_, k, _⟩ := h4 (by
      rcases hs with h | h | h
      · exact .inl h
      · exact .inr h
      · cases h)
    simp only [Bool.not_true, Bool.false_eq_true, if_false]
    revert k
    rcases s.map.getData with x | ⟨d, m⟩ <;> rcases s₀.map.getData with y | ⟨d', m'⟩ <;> intro k <;>
      cases k
    · rfl
    · simp only
      cases slmFromString s₀.value d.sources d.contents d.mappings <;> rfl

/-- C40 for line-level maps: the same answer whatever reads came before, if the map was given as data
or without an inner map, or if `module` is off. `C40_not_general` shows that this is needed. -/
theorem C40_lines_partial (s₀ s : Sms) (hr : Sms.Reads s₀ s) (module_ : Bool)
    (hs : s₀.map.data.isSome = true ∨ s₀.inner = none ∨ module_ = false) :
    (s.listMap module_).map Prod.fst = (s₀.listMap module_).map Prod.fst := Sms.steady hs hr

/-- No `SourceMapSource` is given its map as a generator and an inner map besides. -/
def Spec.NoLateInner : Op → Prop
  | .newSms _ _ _ m _ inner => m.data.isSome = true ∨ inner = none
  | _ => True

/-- C06 for `sourceAndMap()` with line-level maps: the same text and map whatever reads came before,
if no `SourceMapSource` has its map as a generator only and an inner map besides, or if `module` is
off. Missing for the full claim: see `C06_not_general`. -/
theorem C06_lines_partial (ops₁ ops₂ : List Op) (h₁ h₂ : Heap) (hsame : writes ops₁ = writes ops₂)
    (hrun₁ : run ops₁ = .ok h₁) (hrun₂ : run ops₂ = .ok h₂) (i : Nat) (module_ : Bool)
    (hin : module_ = false ∨ ∀ op ∈ ops₁, NoLateInner op) (file : Option Int) :
    (apiSourceAndMap h₁ i false module_ file).map Prod.fst =
      (apiSourceAndMap h₂ i false module_ file).map Prod.fst := by
  obtain ⟨A, hA, H₁⟩ := run_abs hrun₁
  obtain ⟨B, hB, H₂⟩ := run_abs hrun₂
  have S : A.Steady module_ := by
    intro i s₀ hs s hr
    refine Sms.steady ?_ hr
    rcases hin with h | h
    · exact .inr (.inr h)
    · have D := stepAll_described hA i
      rw [hs] at D
      cases hc : (created ops₁)[i]? with
      | none => rw [hc] at D; cases D
      | some op =>
        rw [hc] at D
        have hm := h op (List.mem_filter.1 (List.mem_of_getElem? hc)).1
        cases op <;> simp [objOf] at D
        subst D
        rcases hm with hm | hm
        · exact .inl hm
        · exact .inr (.inl hm)
  rw [← stepAll_filter] at hA hB
  unfold writes at hsame
  rw [hsame] at hA
  rw [hA] at hB; cases hB
  have hb : budget h₁ = budget h₂ := by simp [budget, ← H₁.1, ← H₂.1]
  unfold apiSourceAndMap
  simp only [Bool.false_eq_true, if_false]
  obtain ⟨g₁, _, e₁⟩ := hListMap_steady A false module_ S (budget h₁) h₁ [] (.ref i) H₁
  obtain ⟨g₂, _, e₂⟩ := hListMap_steady A false module_ S (budget h₂) h₂ [] (.ref i) H₂
  rw [apiListMap, apiListMap, e₁, e₂, hb]
  cases aListMap false module_ (budget h₂) A [] (.ref i) <;> rfl

/-- A generator that maps the beginnings of two lines. -/
def twoMappings (line₁ line₂ : Nat) (src : Int) : Generator :=
  ((Generator.new none none true).addMapping
    { generated := (1, 0), original := some (line₁, 0), source := some src, name := none }).addMapping
    { generated := (2, 0), original := some (line₂, 0), source := some src, name := none }

/-- Object 2 is a prefix over a replacement over a `SourceMapSource` with a generator and an inner
map. -/
def C06_writes : List Op :=
  [.newSms "a\nb".toList 9 1 ⟨none, some (twoMappings 1 2 1)⟩ none
    (some ⟨none, some (twoMappings 5 5 2)⟩),
   .newReplace (.ref 0), .insert 1 2 "X".toList 0, .newPrefix "> ".toList (.ref 1)]

/-- The text beside the line-level map of object 2 after a history. -/
def C06_read (ops : List Op) : Option Str :=
  match run ops with
  | .error _ => none
  | .ok h => (apiSourceAndMap h 2 false true none).toOption.map (·.1.source)

/-- C06 fails for line-level maps: after `node()` was read the same object returns another text. -/
theorem C06_not_general :
    C06_read C06_writes = some "> a\n> X> b".toList ∧
    C06_read (C06_writes ++ [.node 2 true true]) = some "> a\n> Xb".toList ∧
    writes (C06_writes ++ [.node 2 true true]) = writes C06_writes := by
  refine ⟨?_, ?_, ?_⟩ <;> decide +kernel

/-! Non-trivial cases. -/

/-- The same calls with the map given as data. -/
def C06_dataWrites : List Op :=
  [.newSms "a\nb".toList 9 1 ⟨some ⟨[1], [], [], "AAAA;AACA".toList⟩, none⟩ none
    (some ⟨none, some (twoMappings 5 5 2)⟩),
   .newReplace (.ref 0), .insert 1 2 "X".toList 0, .newPrefix "> ".toList (.ref 1)]

example : ∀ op ∈ C06_dataWrites, NoLateInner op := by
  intro op hop
  simp only [C06_dataWrites, List.mem_cons, List.not_mem_nil, or_false] at hop
  rcases hop with rfl | rfl | rfl | rfl <;> first | trivial | exact .inl rfl
example : C06_read C06_dataWrites = some "> a\n> X> b".toList := by decide +kernel
example : C06_read (C06_dataWrites ++ [.node 2 true true]) = some "> a\n> X> b".toList := by
  decide +kernel
example : (match run (C06_writes ++ [.listMap 0 false true, .node 2 true true]) with
    | .error _ => none
    | .ok h => (apiSourceAndMap h 2 true true none).toOption.map (·.1.source)) =
      some "> a\n> Xb".toList := by decide +kernel

end WS
