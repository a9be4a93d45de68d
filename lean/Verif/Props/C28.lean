import Verif.Props.C11
import Verif.Props.C09
/-! # C28 Output does not depend on hash iteration order -/

namespace WS
open Spec

mutual
  /-- The same tree with every content table iterated in some other order. Tables are hash maps, so
  their keys differ. -/
  inductive Spec.Reordered : SmNode → SmNode → Prop where
    | str (s : Str) : Reordered (.str s) (.str s)
    | node {pos src name cs cs' ch ch'} : (cs.map Prod.fst).Nodup → cs.Perm cs' →
        ReorderedList ch ch' → Reordered (.node pos src name cs ch) (.node pos src name cs' ch')
  /-- For lists of nodes. -/
  inductive Spec.ReorderedList : List SmNode → List SmNode → Prop where
    | nil : ReorderedList [] []
    | cons {a b as bs} : Reordered a b → ReorderedList as bs → ReorderedList (a :: as) (b :: bs)
end

/-- Put other contents. -/
def setC (x : List (Int × Int)) (c : WalkCtx) : WalkCtx := { c with map := { c.map with contents := x } }

theorem setC_addMapping (x : List (Int × Int)) (g : Generator) (m : Mapping) :
    ({ g with contents := x }).addMapping m = { g.addMapping m with contents := x } := by
  obtain ⟨gen, s, n, o⟩ := m
  cases s <;> cases n <;> rfl

theorem setC_chunkHead (x : List (Int × Int)) (c : WalkCtx) (chunk : Str) (src : Option Int)
    (pos : Option (Nat × Nat)) (name : Option Int) :
    chunkHead (setC x c) chunk src pos name = setC x (chunkHead c chunk src pos name) := by
  unfold chunkHead setC
  dsimp only
  split
  · split
    · rw [setC_addMapping]
    · rfl
  · split
    · rw [setC_addMapping]
    · rfl

theorem setC_chunkChars (x : List (Int × Int)) (src : Option Int) (pos : Option (Nat × Nat))
    (name : Option Int) : ∀ (rest : Str) (c : WalkCtx),
    chunkChars src pos name (setC x c) rest = setC x (chunkChars src pos name c rest) := by
  intro rest
  induction rest with
  | nil => intro c; rfl
  | cons ch rest ih =>
    intro c
    rw [chunkChars, chunkChars]
    split
    · dsimp only
      rw [← ih]
      congr 1
      unfold setC
      dsimp only
      split
      · rfl
      · split
        · rw [setC_addMapping]
        · rfl
    · rw [← ih]; rfl

theorem setC_processChunk (x : List (Int × Int)) (c : WalkCtx) (chunk : Str) (src : Option Int)
    (pos : Option (Nat × Nat)) (name : Option Int) :
    processChunk (setC x c) chunk src pos name = setC x (processChunk c chunk src pos name) := by
  rw [processChunk, setC_chunkHead, setC_chunkChars]; rfl

theorem addMapping_contents (g : Generator) (m : Mapping) : (g.addMapping m).contents = g.contents := by
  obtain ⟨gen, s, n, o⟩ := m
  cases s <;> cases n <;> rfl

theorem processChunk_contents (c : WalkCtx) (chunk : Str) (src : Option Int) (pos : Option (Nat × Nat))
    (name : Option Int) : (processChunk c chunk src pos name).map.contents = c.map.contents := by
  have h := setC_processChunk c.map.contents c chunk src pos name
  have : setC c.map.contents c = c := rfl
  rw [this] at h
  rw [h]; rfl

/-- Equal but for the order of the contents. -/
def Sim (c d : WalkCtx) : Prop :=
  c = setC c.map.contents d ∧ ∀ s, c.map.contents.lookup s = d.map.contents.lookup s

theorem Sim.processChunk {c d : WalkCtx} (h : Sim c d) (chunk : Str) (src : Option Int)
    (pos : Option (Nat × Nat)) (name : Option Int) :
    Sim (processChunk c chunk src pos name) (WS.processChunk d chunk src pos name) := by
  refine ⟨?_, fun s => ?_⟩
  · rw [processChunk_contents]
    conv => lhs; rw [h.1]
    rw [setC_processChunk]
  · rw [processChunk_contents, processChunk_contents]; exact h.2 s

theorem foldl_contentStep_nodup (s : Int) : ∀ (cs : List (Int × Int)) (acc : Option Int),
    (cs.map fun p => (p.1, some p.2)).foldl (contentStep s) acc = acc.or (cs.lookup s) := by
  intro cs
  induction cs with
  | nil => intro acc; simp
  | cons p cs ih =>
    intro acc
    obtain ⟨k, v⟩ := p
    rw [List.map_cons, List.foldl_cons, ih, List.lookup_cons]
    unfold contentStep
    by_cases h : k = s
    · subst h
      simp only [beq_self_eq_true]
      cases acc <;> simp
    · have : (s == k) = false := by simpa using fun e => h e.symm
      simp [h, this]

theorem processContents_eq (cs : List (Int × Int)) : ∀ c : WalkCtx, cs.foldl processContent c =
    setC (setAll c.map (cs.map fun p => (p.1, some p.2))).contents c := by
  induction cs with
  | nil => intro c; rfl
  | cons p cs ih => intro c; rw [List.foldl_cons, ih]; rfl

theorem lookup_perm {cs cs' : List (Int × Int)} (hp : cs.Perm cs') (hn : (cs.map Prod.fst).Nodup)
    (s : Int) : cs.lookup s = cs'.lookup s := by
  induction hp with
  | nil => rfl
  | cons a _ ih =>
    obtain ⟨k, v⟩ := a
    rw [List.map_cons, List.nodup_cons] at hn
    rw [List.lookup_cons, List.lookup_cons, ih hn.2]
  | swap a b l =>
    obtain ⟨k, v⟩ := a
    obtain ⟨k', v'⟩ := b
    simp only [List.map_cons, List.nodup_cons, List.mem_cons, not_or] at hn
    simp only [List.lookup_cons]
    by_cases h1 : s = k
    · subst h1
      have : (s == k') = false := by simpa using fun e => hn.1.1 e.symm
      simp [this]
    · have : (s == k) = false := by simpa using h1
      simp [this]
  | trans h1 _ ih1 ih2 => rw [ih1 hn, ih2 ((h1.map _).nodup hn)]

theorem Sim.contents {c d : WalkCtx} (h : Sim c d) {cs cs' : List (Int × Int)} (hp : cs.Perm cs')
    (hn : (cs.map Prod.fst).Nodup) : Sim (cs.foldl processContent c) (cs'.foldl processContent d) := by
  rw [processContents_eq, processContents_eq]
  refine ⟨?_, fun s => ?_⟩
  · have : ∀ x, setC x c = setC x d := fun x => by rw [h.1]; rfl
    exact this _
  · have e : ∀ (x : List (Int × Int)) (y : WalkCtx), (setC x y).map.contents = x := fun _ _ => rfl
    rw [e, e, setAll_lookup, setAll_lookup, foldl_contentStep_nodup, foldl_contentStep_nodup, h.2 s,
      lookup_perm hp hn s]

mutual
  theorem Spec.Reordered.walk : ∀ {a b : SmNode} {c d : WalkCtx}, Reordered a b → Sim c d →
      Sim (a.walk c) (b.walk d)
    | _, _, c, d, .str s, h => by rw [SmNode.walk, SmNode.walk]; exact h.processChunk _ _ _ _
    | _, _, c, d, .node hn hp hl, h => by
      rw [SmNode.walk, SmNode.walk]
      exact (Spec.ReorderedList.walk _ _ _ hl h).contents hp hn
  theorem Spec.ReorderedList.walk (pos : Option (Nat × Nat)) (src name : Option Int) :
      ∀ {as bs : List SmNode} {c d : WalkCtx}, ReorderedList as bs → Sim c d →
      Sim (SmNode.walkList pos src name as c) (SmNode.walkList pos src name bs d)
    | _, _, c, d, .nil, h => by rw [SmNode.walkList, SmNode.walkList]; exact h
    | _, _, c, d, .cons (.str s) hl, h => by
      rw [SmNode.walkList, SmNode.walkList]
      exact Spec.ReorderedList.walk pos src name hl (h.processChunk _ _ _ _)
    | _, _, c, d, .cons (.node hn hp hc) hl, h => by
      rw [SmNode.walkList, SmNode.walkList]
      exact Spec.ReorderedList.walk pos src name hl (Spec.Reordered.walk (.node hn hp hc) h)
end

theorem toSourceMap_contents {g g' : Generator} (h1 : g = { g' with contents := g.contents })
    (h2 : ∀ s, g.contents.lookup s = g'.contents.lookup s) :
    g.toSourceMap.map Prod.fst = g'.toSourceMap.map Prod.fst := by
  have hf : (g.sources.filterMap fun p => g.contents.lookup p.1) =
      (g'.sources.filterMap fun p => g'.contents.lookup p.1) := by
    rw [h1]; exact filterMap_congr' fun p _ => h2 p.1
  have e1 : g.mappings = g'.mappings := by rw [h1]
  have e2 : g.sources = g'.sources := by rw [h1]
  have e3 : g.names = g'.names := by rw [h1]
  have e4 : g.file = g'.file := by rw [h1]
  have e5 : g.sourceRoot = g'.sourceRoot := by rw [h1]
  unfold Generator.toSourceMap Generator.serializeMappings
  dsimp only
  rw [e1, e2, e3]
  cases serLoop g'.sources g'.names false {} g'.mappings.sort.list with
  | error e => rfl
  | ok s =>
    rw [e2] at hf
    simp [Except.map, hf, e4, e5]

/-- C28. The emitted text and map are the same for every order of the content tables. -/
theorem C28_order_irrelevant (a b : SmNode) (h : Reordered a b) (file : Option Int)
    (root : Option Str) :
    a.toStringWithSourceMap file root = b.toStringWithSourceMap file root := by
  have hs : Sim (a.walk (WalkCtx.new file root)) (b.walk (WalkCtx.new file root)) :=
    h.walk ⟨rfl, fun _ => rfl⟩
  have hc : (a.walk (WalkCtx.new file root)).code = (b.walk (WalkCtx.new file root)).code := by
    rw [hs.1]; rfl
  have hm := toSourceMap_contents (g := (a.walk (WalkCtx.new file root)).map)
    (g' := (b.walk (WalkCtx.new file root)).map) (by conv => lhs; rw [hs.1]
                                                     rfl) hs.2
  unfold SmNode.toStringWithSourceMap
  dsimp only
  revert hm
  cases (a.walk (WalkCtx.new file root)).map.toSourceMap <;>
    cases (b.walk (WalkCtx.new file root)).map.toSourceMap <;>
    simp [Except.map, hc]

/-- Two nodes register different contents for source 1 (the first one walked wins), and the table of
the outer node is iterated in two orders. -/
example : Reordered
    (.node none none none [(1, 10), (2, 20)] [.node (some (1, 0)) (some 1) none [(1, 30)] [.str ['a']],
      .node (some (1, 0)) (some 2) none [] [.str ['b']]])
    (.node none none none [(2, 20), (1, 10)] [.node (some (1, 0)) (some 1) none [(1, 30)] [.str ['a']],
      .node (some (1, 0)) (some 2) none [] [.str ['b']]]) :=
  .node (by decide) (.swap _ _ _) (.cons (.node (by decide) (.refl _) (.cons (.str _) .nil))
    (.cons (.node (by decide) (.refl _) (.cons (.str _) .nil)) .nil))

end WS
