import Verif.Proofs.Walk
/-! # C09 Column-level maps attribute every generated character to its node -/

namespace WS
open Spec

/-- C09, as far as it holds: writing the map of a tree succeeds, the written text is the text of the
tree and the written map, decoded by the rules of the format, attributes every character to the
origin of the string it came from. Missing: trees in which an empty string has an origin, see
`C09_not_general` (no source kind but `ReplaceSource` builds such trees). -/
theorem C09_attribution_partial (n : SmNode) (file : Option Int) (root : Option Str)
    (hok : ∀ l ∈ n.leaves, LeafOk l) :
    ∃ r ps, n.toStringWithSourceMap file root = .ok r ∧ mapPoints r.map = some ps ∧
      Attributes ps n.marks ∧ ps.Pairwise Point.Le ∧ r.source = n.text := by
  have h := SmNode.walk_inv n (WalkCtx.new_inv file root) hok
  have hsort : (n.walk (WalkCtx.new file root)).map.mappings.sort.list =
      (n.walk (WalkCtx.new file root)).map.mappings.list := by
    rw [MappingList.sort_list h.truthful]
    exact sortBy_of_pairwise _ h.ordered
  obtain ⟨m, e, _, _, _, hp⟩ := Generator.toSourceMap_ok h.ok (by rw [hsort]; exact h.ordered)
  refine ⟨⟨(n.walk (WalkCtx.new file root)).code, m⟩, _, ?_, hp, ?_, ?_, ?_⟩
  · unfold SmNode.toStringWithSourceMap
    dsimp only
    rw [e]
  · rw [hsort]
    have := h.attr
    simpa [WalkCtx.points] using this
  · rw [hsort]; exact sorted_points h.ordered
  · simpa using h.code

/-- The text is right for every tree. -/
theorem chunkHead_code (c : WalkCtx) (chunk : Str) (src : Option Int) (pos : Option (Nat × Nat))
    (name : Option Int) : (chunkHead c chunk src pos name).code = c.code ++ chunk := by
  unfold chunkHead
  dsimp only
  split
  · split <;> rfl
  · split <;> rfl

theorem chunkChars_code (src : Option Int) (pos : Option (Nat × Nat)) (name : Option Int) :
    ∀ (rest : Str) (c : WalkCtx), (chunkChars src pos name c rest).code = c.code := by
  intro rest
  induction rest with
  | nil => intro c; rfl
  | cons ch rest ih =>
    intro c
    rw [chunkChars]
    split
    · dsimp only
      rw [ih]
      split
      · rfl
      · split <;> rfl
    · rw [ih]

theorem processChunk_code (c : WalkCtx) (chunk : Str) (src : Option Int) (pos : Option (Nat × Nat))
    (name : Option Int) : (processChunk c chunk src pos name).code = c.code ++ chunk := by
  rw [processChunk, chunkChars_code, chunkHead_code]

theorem processContents_code (cs : List (Int × Int)) : ∀ c : WalkCtx,
    (cs.foldl processContent c).code = c.code := by
  induction cs with
  | nil => intro c; rfl
  | cons p cs ih => intro c; rw [List.foldl_cons, ih]; rfl

mutual
  theorem SmNode.walk_code : ∀ (n : SmNode) (c : WalkCtx), (n.walk c).code = c.code ++ n.text
    | .str s, c => by simp [SmNode.walk, processChunk_code, SmNode.text, SmNode.leaves]
    | .node pos src name cs ch, c => by
      rw [SmNode.walk, processContents_code, SmNode.walkList_code, SmNode.text, SmNode.leaves]
  theorem SmNode.walkList_code (pos : Option (Nat × Nat)) (src name : Option Int) :
      ∀ (ch : List SmNode) (c : WalkCtx), (SmNode.walkList pos src name ch c).code =
        c.code ++ ((SmNode.leavesList (originOf pos src name) ch).map Prod.fst).flatten
    | [], c => by simp [SmNode.walkList, SmNode.leavesList]
    | .str s :: rest, c => by
      rw [SmNode.walkList, SmNode.walkList_code, processChunk_code, SmNode.leavesList]
      simp
    | .node p s n cs ch :: rest, c => by
      rw [SmNode.walkList, SmNode.walkList_code, SmNode.walk_code, SmNode.leavesList]
      simp [SmNode.text]
end

/-- The text that goes with the map of a tree is the text of its strings, for every tree. -/
theorem C09_text (n : SmNode) (file : Option Int) (root : Option Str) (r : StringWithSourceMap)
    (h : n.toStringWithSourceMap file root = .ok r) : r.source = n.text := by
  unfold SmNode.toStringWithSourceMap at h
  dsimp only at h
  split at h
  · cases h
  · cases h
    simp [SmNode.walk_code, WalkCtx.new]

/-- A tree with nested nodes, a name, several lines in one string, strings without origin, and two
neighbours with the same origin. -/
def C09_tree : SmNode :=
  .node none none none [(1, 100)]
    [.str "// x\n".toList,
     .node (some (3, 4)) (some 1) (some 7) [] [.str "foo".toList, .str "();\n\n  bar".toList,
       .node (some (8, 0)) (some 2) none [] [.str "baz\n".toList], .str ";".toList],
     .str [], .str "\nend".toList]

example : ∀ l ∈ C09_tree.leaves, LeafOk l := by decide
example : (match C09_tree.toStringWithSourceMap none none with
    | .ok r => (r.source, mapPoints r.map) | .error _ => ([], none)) =
  ("// x\nfoo();\n\n  barbaz\n;\nend".toList,
    some [⟨2, 0, some ⟨1, 3, 4, some 7⟩⟩, ⟨3, 0, some ⟨1, 3, 4, some 7⟩⟩,
      ⟨4, 0, some ⟨1, 3, 4, some 7⟩⟩, ⟨4, 5, some ⟨2, 8, 0, none⟩⟩,
      ⟨5, 0, some ⟨1, 3, 4, some 7⟩⟩, ⟨5, 1, none⟩]) := by decide +kernel

/-- C09 fails in general: an empty string with an origin makes the following, unattributed string
look as if it came from there. -/
def C09_bad : SmNode :=
  .node none none none [] [.node (some (1, 0)) (some 1) none [] [.str []], .str "x".toList]

theorem C09_not_general : C09_bad.marks = [('x', none)] ∧
    ∃ r ps, C09_bad.toStringWithSourceMap none none = .ok r ∧ mapPoints r.map = some ps ∧
      lookup ps 1 0 = some ⟨1, 1, 0, none⟩ ∧ ¬ Attributes ps C09_bad.marks := by
  refine ⟨rfl, _, [⟨1, 0, none⟩, ⟨1, 0, some ⟨1, 1, 0, none⟩⟩], rfl, by decide +kernel, rfl, ?_⟩
  intro h
  have := h 0 'x' none rfl
  revert this
  decide

end WS
