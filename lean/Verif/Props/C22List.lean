import Verif.Props.C12
/-! # C22 for line-level maps -/

namespace WS
open Spec

/-- A source index other than `-1`, which stands for "no source" in the emitted array. -/
def LNode.Named : LNode → Prop
  | .source n => n.source ≠ some (-1)
  | .single n => n.source ≠ some (-1)
  | _ => True

/-- Mapped nodes that count their lines right and start at a line numbered from 1. -/
def LNode.Counted : LNode → Prop
  | .source n => n.numLines = numberOfLines n.code ∧ (n.code ≠ [] → 1 ≤ n.startLine)
  | .single n => n.numLines = numberOfLines n.code ∧ (n.code ≠ [] → 1 ≤ n.line)
  | _ => True

/-- Children that are not bare strings. -/
def LNode.notStr : LNode → Bool
  | .str _ => false
  | _ => true

theorem slmMappings_filter : ∀ (m : Slm) (c : MapCtx),
    slmMappings c (m.filter LNode.notStr) = slmMappings c m
  | [], c => rfl
  | n :: m, c => by
    cases n with
    | str s =>
      rw [List.filter_cons_of_neg (by simp [LNode.notStr]), slmMappings_filter m c]
      simp [slmMappings, LNode.mappings]
    | _ =>
      rw [List.filter_cons_of_pos (by rfl)]
      simp only [slmMappings]
      rw [slmMappings_filter]

/-- What the table of sources keeps: no key twice, and only keys of nodes. -/
def MapCtx.Keys (c : MapCtx) : Prop :=
  (c.sources.map (·.1)).Nodup ∧ ∀ k ∈ c.sources.map (·.1), k ≠ some (-1)

theorem lookup_none_mem {α β} [BEq α] [LawfulBEq α] {l : List (α × β)} {a : α}
    (h : l.lookup a = none) : a ∉ l.map (·.1) := by
  induction l with
  | nil => simp
  | cons x l ih =>
    rw [List.lookup_cons] at h
    by_cases hx : (a == x.1) = true
    · rw [hx] at h; cases h
    · simp only [hx] at h
      simp only [List.map_cons, List.mem_cons, not_or]
      exact ⟨fun e => hx (by simp [e]), ih h⟩

theorem ensureSource_keys {c : MapCtx} (hc : c.Keys) {s : Option Int} (o : Option Int)
    (hs : s ≠ some (-1)) : (c.ensureSource s o).2.Keys := by
  unfold MapCtx.ensureSource
  split
  · exact hc
  · rename_i h
    have hm := lookup_none_mem h
    refine ⟨?_, ?_⟩
    · simp only [List.map_append, List.map_cons, List.map_nil]
      rw [List.nodup_append]
      refine ⟨hc.1, by simp, ?_⟩
      intro a ha b hb e
      simp only [List.mem_singleton] at hb
      exact hm (hb ▸ e ▸ ha)
    · intro k hk
      simp only [List.map_append, List.map_cons, List.map_nil, List.mem_append,
        List.mem_singleton] at hk
      rcases hk with hk | hk
      · exact hc.2 k hk
      · exact hk ▸ hs

theorem node_keys {c : MapCtx} (hc : c.Keys) {n : LNode} (hn : n.Named) : (n.mappings c).2.Keys := by
  cases n with
  | source n =>
    simp only [LNode.mappings, LSource.mappings]
    split
    · exact hc
    · exact ensureSource_keys hc _ hn
  | single n =>
    simp only [LNode.mappings, LSingle.mappings]
    split
    · exact hc
    · exact ensureSource_keys hc _ hn
  | code s =>
    simp only [LNode.mappings, codeMappings]
    split <;> exact hc
  | _ => exact hc

theorem slm_keys : ∀ {m : Slm} {c : MapCtx}, c.Keys → (∀ n ∈ m, n.Named) → (slmMappings c m).2.Keys
  | [], _, hc, _ => hc
  | n :: m, _, hc, hm => by
    simp only [slmMappings]
    exact slm_keys (m := m) (node_keys hc (hm n (by simp))) (fun k hk => hm k (by simp [hk]))

theorem getD_injOn {a b : Option Int} (ha : a ≠ some (-1)) (hb : b ≠ some (-1))
    (h : a.getD (-1) = b.getD (-1)) : a = b := by
  cases a <;> cases b <;> simp_all

theorem nodup_map_on {α β} {f : α → β} : ∀ {l : List α}, l.Nodup →
    (∀ a ∈ l, ∀ b ∈ l, f a = f b → a = b) → (l.map f).Nodup
  | [], _, _ => by simp
  | a :: l, h, hf => by
    rw [List.nodup_cons] at h
    rw [List.map_cons, List.nodup_cons]
    refine ⟨?_, nodup_map_on h.2 fun x hx y hy => hf x (by simp [hx]) y (by simp [hy])⟩
    intro hm
    obtain ⟨b, hb, e⟩ := List.mem_map.1 hm
    have := hf b (by simp [hb]) a (by simp) e
    exact h.1 (this ▸ hb)

/-- C22 for list maps, bare strings included: neither array repeats an entry and every index of the
mappings string is valid (`mapPoints` fails otherwise). Missing: a list map that holds both the source
index `-1` and no source at all, see `C22_list_not_general`. -/
theorem C22_list_partial (m : Slm) (file : Option Int) (hm : ∀ n ∈ m, n.Counted)
    (hs : ∀ n ∈ m, n.Named) :
    (slmToStringWithSourceMap m file).map.sources.Nodup ∧
    (slmToStringWithSourceMap m file).map.names.Nodup ∧
    (mapPoints (slmToStringWithSourceMap m file).map).isSome = true := by
  refine ⟨?_, by simp [slmToStringWithSourceMap], ?_⟩
  · have hk := slm_keys (m := m) (c := MapCtx.new) ⟨by simp [MapCtx.new], by simp [MapCtx.new]⟩ hs
    simp only [slmToStringWithSourceMap]
    have := nodup_map_on (f := fun k : Option Int => k.getD (-1)) hk.1
      fun a ha b hb => getD_injOn (hk.2 a ha) (hk.2 b hb)
    rw [List.map_map] at this
    exact this
  · have e : (slmToStringWithSourceMap m file).map =
        (slmToStringWithSourceMap (m.filter LNode.notStr) file).map := by
      simp only [slmToStringWithSourceMap]
      rw [slmMappings_filter]
    rw [e, (C12_segments_partial _ file ?_).1]
    · rfl
    · intro n hn
      rw [List.mem_filter] at hn
      have := hm n hn.1
      cases n with
      | str s => exact absurd hn.2 (by simp [LNode.notStr])
      | source n => exact this
      | single n => exact this
      | code s => trivial
      | map ch => trivial
      | idx i => trivial

/-- Index `-1` is written both for itself and for a missing source (`mappings_context.rs:45-55`):
two entries of the table become equal. -/
theorem C22_list_not_general :
    let m : Slm := [.source (LSource.new "a\n".toList none none 1),
      .source (LSource.new "b".toList (some (-1)) none 1)]
    (slmToStringWithSourceMap m none).map.sources = [-1, -1] := by decide +kernel

example : (∀ n ∈ C12_sample, n.Counted) ∧ ∀ n ∈ C12_sample, n.Named := by
  constructor <;> intro n hn <;>
  simp only [C12_sample, List.mem_cons, List.not_mem_nil, or_false] at hn <;>
  rcases hn with rfl | rfl | rfl | rfl | rfl | rfl | rfl <;>
    simp [LNode.Counted, LNode.Named, LSource.new, LSingle.new]

example : (slmToStringWithSourceMap C12_sample none).map.sources = [7, 9] := by decide +kernel

end WS
