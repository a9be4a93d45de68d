import Verif.Proofs.Reads
/-! # C06 Reading never changes what is read later; C40 the same for the maps of `SourceMapSource` -/

namespace WS
open Spec

/-- The calls of a history that are not reads. -/
def Spec.writes (ops : List Op) : List Op := ops.filter fun op => !op.isRead

/-- C06. Two histories that differ only in the reads they contain, at any places, leave every object
reading the same: `source()` and `size()` return the same (or trap alike). -/
theorem C06_source_size (ops₁ ops₂ : List Op) (h₁ h₂ : Heap) (hsame : writes ops₁ = writes ops₂)
    (hrun₁ : run ops₁ = .ok h₁) (hrun₂ : run ops₂ = .ok h₂) (i : Nat) :
    (apiSource h₁ i).map Prod.fst = (apiSource h₂ i).map Prod.fst ∧
    (apiSize h₁ i).map Prod.fst = (apiSize h₂ i).map Prod.fst := by
  obtain ⟨A, hA, H₁⟩ := run_abs hrun₁
  obtain ⟨B, hB, H₂⟩ := run_abs hrun₂
  rw [← stepAll_filter] at hA hB
  unfold writes at hsame
  rw [hsame] at hA
  rw [hA] at hB; cases hB
  have hb : budget h₁ = budget h₂ := by simp [budget, ← H₁.1, ← H₂.1]
  constructor
  · obtain ⟨g₁, _, e₁⟩ := hSource_computes A (budget h₁) h₁ [] (.ref i) H₁
    obtain ⟨g₂, _, e₂⟩ := hSource_computes A (budget h₂) h₂ [] (.ref i) H₂
    rw [apiSource, apiSource, e₁, e₂, hb]
    cases aSource (budget h₂) A [] (.ref i) <;> rfl
  · obtain ⟨g₁, _, e₁⟩ := hSize_computes A (budget h₁) h₁ [] (.ref i) H₁
    obtain ⟨g₂, _, e₂⟩ := hSize_computes A (budget h₂) h₂ [] (.ref i) H₂
    rw [apiSize, apiSize, e₁, e₂, hb]
    cases aSize (budget h₂) A [] (.ref i) <;> rfl

/-- C06: leaving the reads out of a history that does not trap does not make it trap. -/
theorem C06_writes_run (ops : List Op) (h : Heap) (hrun : run ops = .ok h) :
    ∃ h', run (writes ops) = .ok h' := by
  obtain ⟨A, hA, H⟩ := run_abs hrun
  rw [← stepAll_filter] at hA
  obtain ⟨h', e, _⟩ := abs_runFrom Abs.empty _ (by
    intro op hop; simpa using (List.mem_filter.1 hop).2) hA
  exact ⟨h', e⟩

/-- The maps given to `SourceMapSource`s are data, or generators with ordered mappings and no inner
map. -/
def Spec.Op.StableMap : Op → Prop
  | .newSms _ _ _ m _ inner => m.data.isSome = true ∨
      (m.data = none ∧ inner = none ∧ ∃ g, m.gen = some g ∧ g.mappings.sort = g.mappings)
  | _ => True

theorem stable_of_ops {ops : List Op} {A : AHeap} (hA : stepAll [] ops = .ok A)
    (hst : ∀ op ∈ ops, Spec.Op.StableMap op) : A.Stable := by
  intro i s hs
  have D := stepAll_described hA i
  rw [hs] at D
  cases hc : (created ops)[i]? with
  | none => rw [hc] at D; cases D
  | some op =>
    rw [hc] at D
    have hm := hst op (List.mem_filter.1 (List.mem_of_getElem? hc)).1
    cases op <;> simp [objOf] at D
    subst D
    exact ⟨rfl, hm⟩

/-- C06 for `map()` and `sourceAndMap()`: they return the same text and map whatever reads came
before. -/
theorem C06_sourceAndMap (ops₁ ops₂ : List Op) (h₁ h₂ : Heap) (hsame : writes ops₁ = writes ops₂)
    (hrun₁ : run ops₁ = .ok h₁) (hrun₂ : run ops₂ = .ok h₂)
    (hst : ∀ op ∈ ops₁, Spec.Op.StableMap op) (i : Nat) (columns module_ : Bool)
    (file : Option Int) :
    (apiSourceAndMap h₁ i columns module_ file).map Prod.fst =
      (apiSourceAndMap h₂ i columns module_ file).map Prod.fst := by
  obtain ⟨A, hA, H₁⟩ := run_abs hrun₁
  obtain ⟨B, hB, H₂⟩ := run_abs hrun₂
  have S := stable_of_ops hA hst
  rw [← stepAll_filter] at hA hB
  unfold writes at hsame
  rw [hsame] at hA
  rw [hA] at hB; cases hB
  have hb : budget h₁ = budget h₂ := by simp [budget, ← H₁.1, ← H₂.1]
  unfold apiSourceAndMap
  split
  · obtain ⟨g₁, _, e₁⟩ := hNode_computes A S columns module_ (budget h₁) h₁ [] (.ref i) H₁
    obtain ⟨g₂, _, e₂⟩ := hNode_computes A S columns module_ (budget h₂) h₂ [] (.ref i) H₂
    rw [apiNode, apiNode, e₁, e₂, hb]
    cases aNode columns module_ (budget h₂) A [] (.ref i) with
    | error e => rfl
    | ok n =>
      simp only [Except.map]
      cases n.toStringWithSourceMap file none <;> rfl
  · obtain ⟨g₁, _, e₁⟩ := hListMap_computes A S columns module_ (budget h₁) h₁ [] (.ref i) H₁
    obtain ⟨g₂, _, e₂⟩ := hListMap_computes A S columns module_ (budget h₂) h₂ [] (.ref i) H₂
    rw [apiListMap, apiListMap, e₁, e₂, hb]
    cases aListMap columns module_ (budget h₂) A [] (.ref i) <;> rfl

/-- C40, for maps given as data or as ordered generators without an inner map: the answers of a
`SourceMapSource` are those it gives right after construction, whatever reads happened. Missing for
the full claim: see `C40_not_general`. -/
theorem C40_stable_partial (s₀ s : Sms) (hs : s₀.Stable) (hr : Sms.Reads s₀ s) (module_ : Bool) :
    s.node.map Prod.fst = s₀.node.map Prod.fst ∧
    (s.listMap module_).map Prod.fst = (s₀.listMap module_).map Prod.fst :=
  ⟨(Sms.reads_same hs hr).node, (Sms.reads_same hs hr).listMap module_⟩

/-- A generator with one mapping, of the first generated character. -/
def oneMapping (line : Nat) (src : Int) : Generator :=
  (Generator.new none none true).addMapping
    { generated := (1, 0), original := some (line, 0), source := some src, name := none }

/-- A `SourceMapSource` whose map and inner map were handed over as generators. -/
def C40_object : Sms :=
  Sms.create "x".toList 9 1 ⟨none, some (oneMapping 1 1)⟩ none (some ⟨none, some (oneMapping 5 2)⟩)

/-- C40 fails in general: with generators and an inner map, `list_map` refers to source 1 before
`node` was called and to source 2 afterwards. -/
theorem C40_not_general : ¬ ∀ s₀ s : Sms, s₀.innerApplied = false → Sms.Reads s₀ s →
    (s.listMap true).map Prod.fst = (s₀.listMap true).map Prod.fst := by
  intro hall
  have hn : ∃ n s, C40_object.node = .ok (n, s) ∧
      (s.listMap true).map Prod.fst ≠ (C40_object.listMap true).map Prod.fst := by
    cases hn : C40_object.node with
    | error e => exact absurd hn (by
        have : C40_object.node.toOption.isSome = true := by decide +kernel
        intro h; rw [h] at this; cases this)
    | ok p =>
      refine ⟨p.1, p.2, rfl, ?_⟩
      have : (C40_object.node.toOption.map fun p =>
            (p.2.listMap true).toOption.map fun q => (slmToStringWithSourceMap q.1 none).map.sources) ≠
          some ((C40_object.listMap true).toOption.map fun q =>
            (slmToStringWithSourceMap q.1 none).map.sources) := by decide +kernel
      rw [hn] at this
      intro h
      apply this
      have := congrArg (fun x : M Slm => x.toOption.map fun q =>
        (slmToStringWithSourceMap q none).map.sources) h
      generalize C40_object.listMap true = x at this ⊢
      generalize hy : p.2.listMap true = y at this
      show some (Option.map _ (Except.toOption (p.2.listMap true))) = _
      rw [hy]
      cases x <;> cases y <;> simpa [Except.map, Except.toOption] using this
  obtain ⟨n, s, h1, h2⟩ := hn
  exact h2 (hall _ s rfl (.node .refl h1))

/-! Non-trivial case: a history with reads that sort requests and fill caches. -/

/-- Requests, reads in between, further requests. -/
def C06_history : List Op :=
  [.newRaw "hello".toList, .newReplace (.ref 0), .replace 1 1 1 "a".toList 0 0, .source 1,
   .insert 1 1 "-".toList 0, .insert 1 1 "+".toList 0, .node 1 true true, .size 1,
   .listMap 1 false true, .insert 1 0 ">".toList 0,
   .newSms "x".toList 1 2 ⟨some ⟨[2], [], [], "AAAA".toList⟩, none⟩ none none, .node 2 true true,
   .listMap 2 false true]

example : (run C06_history).toOption.isSome = true := by decide +kernel
example : writes C06_history ≠ C06_history := by decide +kernel
example : (match run C06_history with
    | .ok h => (apiSource h 1).toOption.map Prod.fst | .error _ => none)
      = some ">h-+allo".toList := by decide +kernel
example : ∀ op ∈ C06_history, Spec.Op.StableMap op := by
  intro op hop
  simp only [C06_history, List.mem_cons, List.not_mem_nil, or_false] at hop
  rcases hop with rfl | rfl | rfl | rfl | rfl | rfl | rfl | rfl | rfl | rfl | rfl | rfl | rfl <;>
    first | trivial | exact .inl rfl

end WS
