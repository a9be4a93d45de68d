import Verif.Props.C09
import Verif.Props.C10
/-! # C22 for the maps of node trees -/

namespace WS
open Spec

/-- Original lines count from 1 and fit a 32-bit `usize`. -/
def Spec.LineOk (l : Str × Option Origin) : Prop :=
  ∀ o, l.2 = some o → 1 ≤ o.line ∧ o.line ≤ 4294967296

/-- What the walk keeps for every tree. -/
structure WalkOk (c : WalkCtx) : Prop where
  ok : c.map.Ok
  truthful : c.map.mappings.Truthful
  lastMax : c.map.mappings.LastMax
  line : 1 ≤ c.gen.1

theorem WalkOk.add {c : WalkCtx} (h : WalkOk c) {m : Mapping} (hv : m.Valid) (d : WalkCtx)
    (hm : d.map = c.map.addMapping m) (hl : 1 ≤ d.gen.1) : WalkOk d := by
  have hadd := MappingList.add_inv h.truthful h.lastMax m
  have hmap := c.map.addMapping_mappings m
  exact ⟨by rw [hm]; exact Generator.addMapping_ok h.ok hv, by rw [hm, hmap]; exact hadd.1,
    by rw [hm, hmap]; exact hadd.2, hl⟩

theorem chunkHead_ok {c : WalkCtx} (h : WalkOk c) (chunk : Str) (src : Option Int)
    (pos : Option (Nat × Nat)) (name : Option Int) (hl : LineOk (chunk, originOf pos src name)) :
    WalkOk (chunkHead c chunk src pos name) ∧
    ((chunkHead c chunk src pos name).active = true → (originOf pos src name).isSome = true) := by
  unfold chunkHead
  dsimp only
  by_cases hs : (src.isSome && pos.isSome) = true
  · rw [if_pos hs]
    refine ⟨?_, fun _ => by rw [originOf_isSome]; exact hs⟩
    obtain ⟨hs1, hs2⟩ := Bool.and_eq_true_iff.1 hs
    obtain ⟨s, rfl⟩ := Option.isSome_iff_exists.1 hs1
    obtain ⟨⟨l, k⟩, rfl⟩ := Option.isSome_iff_exists.1 hs2
    split
    · exact h.add (m := { source := some s, original := some (l, k), generated := c.gen, name })
        ⟨h.line, hl _ rfl⟩ _ rfl h.line
    · exact ⟨h.ok, h.truthful, h.lastMax, h.line⟩
  · rw [if_neg hs]
    split
    · refine ⟨?_, fun hh => by cases hh⟩
      exact h.add (m := { source := none, original := none, generated := c.gen, name := none })
        ⟨h.line, rfl⟩ _ rfl h.line
    · rename_i ha
      exact ⟨⟨h.ok, h.truthful, h.lastMax, h.line⟩, fun hh => absurd hh ha⟩

theorem chunkChars_ok (src : Option Int) (pos : Option (Nat × Nat)) (name : Option Int)
    (hl : LineOk ([], originOf pos src name)) : ∀ (rest : Str) {c : WalkCtx}, WalkOk c →
    (c.active = true → (originOf pos src name).isSome = true) →
    WalkOk (chunkChars src pos name c rest) := by
  intro rest
  induction rest with
  | nil => intro c h _; exact h
  | cons ch rest ih =>
    intro c h ha
    rw [chunkChars]
    split
    · dsimp only
      split
      · exact ih ⟨h.ok, h.truthful, h.lastMax, by simp⟩ (fun hh => by cases hh)
      · by_cases hact : c.active = true
        · rw [if_pos hact]
          have hs := ha hact
          rw [originOf_isSome] at hs
          obtain ⟨hs1, hs2⟩ := Bool.and_eq_true_iff.1 hs
          obtain ⟨s, rfl⟩ := Option.isSome_iff_exists.1 hs1
          obtain ⟨⟨l, k⟩, rfl⟩ := Option.isSome_iff_exists.1 hs2
          apply ih
          · exact h.add (m := { source := some s, original := some (l, k),
                                generated := (c.gen.1 + 1, 0), name }) ⟨by simp, hl _ rfl⟩ _ rfl (by simp)
          · exact fun _ => ha hact
        · rw [if_neg hact]
          exact ih ⟨h.ok, h.truthful, h.lastMax, by simp⟩ ha
    · exact ih ⟨h.ok, h.truthful, h.lastMax, h.line⟩ ha

theorem processChunk_ok {c : WalkCtx} (h : WalkOk c) (chunk : Str) (src : Option Int)
    (pos : Option (Nat × Nat)) (name : Option Int) (hl : LineOk (chunk, originOf pos src name)) :
    WalkOk (processChunk c chunk src pos name) := by
  obtain ⟨h1, h2⟩ := chunkHead_ok h chunk src pos name hl
  exact chunkChars_ok src pos name hl chunk h1 h2

theorem processContents_ok (cs : List (Int × Int)) : ∀ {c : WalkCtx}, WalkOk c →
    WalkOk (cs.foldl processContent c) := by
  induction cs with
  | nil => intro c h; exact h
  | cons p cs ih =>
    intro c h
    exact ih ⟨Generator.setContent_ok h.ok p.1 (some p.2), h.truthful, h.lastMax, h.line⟩

mutual
  theorem SmNode.walk_ok : ∀ (n : SmNode) {c : WalkCtx}, WalkOk c → (∀ l ∈ n.leaves, LineOk l) →
      WalkOk (n.walk c)
    | .str s, c, h, hl => by
      rw [SmNode.walk]
      exact processChunk_ok h s none none none (hl (s, none) (by simp [SmNode.leaves]))
    | .node pos src name cs ch, c, h, hl => by
      rw [SmNode.walk]
      exact processContents_ok cs (SmNode.walkList_ok pos src name ch h hl)
  theorem SmNode.walkList_ok (pos : Option (Nat × Nat)) (src name : Option Int) :
      ∀ (ch : List SmNode) {c : WalkCtx}, WalkOk c →
      (∀ l ∈ SmNode.leavesList (originOf pos src name) ch, LineOk l) →
      WalkOk (SmNode.walkList pos src name ch c)
    | [], c, h, _ => by rw [SmNode.walkList]; exact h
    | .str s :: rest, c, h, hl => by
      rw [SmNode.leavesList] at hl
      rw [SmNode.walkList]
      exact SmNode.walkList_ok pos src name rest (processChunk_ok h s src pos name (hl _ (by simp)))
        (fun l hm => hl l (by simp [hm]))
    | .node p s n cs ch :: rest, c, h, hl => by
      rw [SmNode.leavesList] at hl
      rw [SmNode.walkList]
      exact SmNode.walkList_ok pos src name rest
        (SmNode.walk_ok (.node p s n cs ch) h (fun l hm => hl l (by simp [hm])))
        (fun l hm => hl l (by simp [hm]))
end

/-- C22 for node trees: the map of every tree can be written; its tables have no duplicates and all
indices are valid (`mapPoints` fails otherwise). -/
theorem C22_node (n : SmNode) (file : Option Int) (root : Option Str)
    (hl : ∀ l ∈ n.leaves, LineOk l) :
    ∃ r, n.toStringWithSourceMap file root = .ok r ∧ r.map.sources.Nodup ∧ r.map.names.Nodup ∧
      (mapPoints r.map).isSome = true := by
  have h := SmNode.walk_ok n (c := WalkCtx.new file root)
    ⟨Generator.new_ok _ _ _, fun _ => List.Pairwise.nil, rfl, Nat.le_refl _⟩ hl
  obtain ⟨m, e, h1, h2, _, hp⟩ := Generator.toSourceMap_ok h.ok (by
    rw [MappingList.sort_list h.truthful]; exact sortBy_sorted _)
  refine ⟨⟨(n.walk (WalkCtx.new file root)).code, m⟩, ?_, h1 ▸ h.ok.sources.2, h2 ▸ h.ok.names.2, ?_⟩
  · unfold SmNode.toStringWithSourceMap
    dsimp only
    rw [e]
  · rw [hp]; rfl

example : ∀ l ∈ C09_tree.leaves, LineOk l := fun l hl o ho =>
  ((by decide : ∀ l ∈ C09_tree.leaves, LeafOk l) l hl o ho).2
example : C09_tree.leaves.length = 7 := by decide

end WS
