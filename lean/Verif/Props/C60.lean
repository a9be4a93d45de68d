import Verif.Props.C59
/-!
# C60: emitted maps are valid

Claim: the `sources`, `names` and `mappings` that an emitted map gives when its properties are read make a
valid map: the mappings decode, every index in them is one of `sources` or `names`, they are in the order
of the text, and no file and no name is listed twice.
-/

namespace WS
open Spec

/-- The properties of the pair, as they read, make a valid map. -/
def Spec.ValidMap (w : World) (k : Nat) : Prop :=
  ∃ l ns s ps, Reads w k .sources (.list l) ∧ Reads w k .names (.list ns) ∧ Reads w k .mappings (.text s) ∧
    points (idTable l.length) (idTable ns.length) s = some ps ∧
    ps.Pairwise (fun a b => a.line < b.line ∨ (a.line = b.line ∧ a.col ≤ b.col)) ∧
    (l.filter Option.isSome).Nodup ∧ ns.Nodup

theorem nodup_map_of {α β : Type} {f : α → β} : ∀ {l : List α}, l.Nodup →
    (∀ a ∈ l, ∀ b ∈ l, f a = f b → a = b) → (l.map f).Nodup
  | [], _, _ => List.nodup_nil
  | a :: l, h, hf => by
    obtain ⟨h1, h2⟩ := List.nodup_cons.1 h
    rw [List.map_cons, List.nodup_cons]
    refine ⟨fun hm => ?_, nodup_map_of h2 fun a ha b hb => hf a (by simp [ha]) b (by simp [hb])⟩
    obtain ⟨b, hb, e⟩ := List.mem_map.1 hm
    rw [hf a (by simp) b (by simp [hb]) e.symm] at h1
    exact h1 hb

variable {U : Pool}

theorem Canon.name {t : StrTable JVal} {P : JVal → Prop} {i : Int} (h : Canon t P i) :
    0 ≤ i ∧ t.indexOf (t.name i) = some i.toNat := by
  obtain ⟨h0, v, hv, -, hi⟩ := h
  have : t.name i = v := by
    rw [StrTable.name, StrTable.at, if_neg (by omega), hv]; rfl
  exact ⟨h0, by rw [this]; exact hi⟩

theorem Canon.inj {t : StrTable JVal} {P Q : JVal → Prop} {i j : Int} (h : Canon t P i) (h' : Canon t Q j)
    (e : t.name i = t.name j) : i = j := by
  obtain ⟨h0, h1⟩ := h.name
  obtain ⟨h2, h3⟩ := h'.name
  rw [e, h3] at h1
  have := Option.some.inj h1
  omega

theorem canon_sources {t : StrTable JVal} {l : List Int} (hl : l.Nodup) (h : ∀ i ∈ l, (dom U t).S i) :
    ((l.map t.name).filter Option.isSome).Nodup := by
  rw [List.filter_map]
  refine nodup_map_of (hl.sublist List.filter_sublist) fun a ha b hb e => ?_
  obtain ⟨ha, ha'⟩ := List.mem_filter.1 ha
  obtain ⟨hb, hb'⟩ := List.mem_filter.1 hb
  rcases h a ha with rfl | h1
  · simp [(t.has_neg).2] at ha'
  · rcases h b hb with rfl | h2
    · simp [(t.has_neg).2] at hb'
    · exact h1.inj h2 e

theorem canon_names {t : StrTable JVal} {l : List Int} (hl : l.Nodup) (h : ∀ i ∈ l, (dom U t).N i) :
    (l.map t.name).Nodup :=
  nodup_map_of hl fun a ha b hb e => Canon.inj (h a ha) (h b hb) e

/-- What is written for a node is valid. -/
theorem node_valid (n : SmNode) (hl : ∀ l ∈ n.leaves, LineOk l) :
    ∃ r ps, n.toStringWithSourceMap none none = .ok r ∧ r.map.sources.Nodup ∧ r.map.names.Nodup ∧
      points (idTable r.map.sources.length) (idTable r.map.names.length) r.map.mappings = some ps ∧
      ps.Pairwise (fun a b => a.line < b.line ∨ (a.line = b.line ∧ a.col ≤ b.col)) := by
  have h := SmNode.walk_ok n (c := WalkCtx.new none none)
    ⟨Generator.new_ok _ _ _, fun _ => List.Pairwise.nil, rfl, Nat.le_refl _⟩ hl
  have hs : (n.walk (WalkCtx.new none none)).map.mappings.sort.list.Pairwise
      (fun a b => Mapping.le a b = true) := by
    rw [MappingList.sort_list h.truthful]; exact sortBy_sorted _
  obtain ⟨m, e, h1, h2, _, hp⟩ := Generator.toSourceMap_ok h.ok hs
  have hq := sorted_points hs
  rw [mapPoints, points_rename, points_renameName] at hp
  cases hx : points (idTable m.sources.length) (idTable m.names.length) m.mappings with
  | none => rw [hx] at hp; cases hp
  | some ps =>
    rw [hx] at hp
    have hp : (ps.map (renameName m.names)).map (renamePoint m.sources) =
        (n.walk (WalkCtx.new none none)).map.mappings.sort.list.map Mapping.point := by simpa using hp
    refine ⟨⟨(n.walk (WalkCtx.new none none)).code, m⟩, ps, ?_, h1 ▸ h.ok.sources.2, h2 ▸ h.ok.names.2, hx, ?_⟩
    · unfold SmNode.toStringWithSourceMap
      dsimp only
      rw [e]
    · rw [← hp, List.pairwise_map, List.pairwise_map] at hq
      exact hq

/-- A pair that tells what a node says is valid. -/
theorem valid_of_tells {w w2 : World} {k : Nat} {n : SmNode} (hin : n.In (dom U w.strs)) (hl : n.Lined)
    (grown : ∃ x, w2.strs.array = w.strs.array ++ x)
    (tells : ∀ r, n.toStringWithSourceMap none none = .ok r → ∀ f,
      ∃ e, w2.maps[k]? = some e ∧ e.Tells true r.source r.map f w2.strs) : ValidMap w2 k := by
  obtain ⟨r, ps, hr, hs, hn, hp, hord⟩ := node_valid n hl.leaves
  have tells := tells r hr
  obtain ⟨-, g', hg⟩ := node_map hr
  have hmap := ((toStringWithGenerator_in hin none none).toSourceMap hg).1
  have has := dom_sub_has (U := U) w.strs
  have h1 : r.map.sources.map w2.strs.name = r.map.sources.map w.strs.name :=
    List.map_congr_left fun i hi => (StrTable.Has.mono grown (has.S i (hmap.sources i hi))).2
  have h2 : r.map.names.map w2.strs.name = r.map.names.map w.strs.name :=
    List.map_congr_left fun i hi => (StrTable.Has.mono grown (has.N i (hmap.names i hi))).2
  have hv := StrTable.values_get (t := w2.strs) (ids := r.map.sources) fun i hi =>
    (StrTable.Has.mono grown (has.S i (hmap.sources i hi))).1
  have hn' := StrTable.values_get (t := w2.strs) (ids := r.map.names) fun i hi =>
    (StrTable.Has.mono grown (has.N i (hmap.names i hi))).1
  refine ⟨r.map.sources.map w2.strs.name, r.map.names.map w2.strs.name, r.map.mappings, ps, ?_, ?_, ?_,
    by rw [List.length_map, List.length_map]; exact hp, hord, ?_, ?_⟩
  · obtain ⟨e, k1, k2⟩ := tells .sources
    exact Tells.reads k1 k2 ⟨_, hv, rfl⟩
  · obtain ⟨e, k1, k2⟩ := tells .names
    refine Tells.reads k1 k2 ?_
    simp only [Displays, if_true]
    exact ⟨_, hn', rfl⟩
  · obtain ⟨e, k1, k2⟩ := tells .mappings
    exact Tells.reads k1 k2 rfl
  · rw [h1]; exact canon_sources hs hmap.sources
  · rw [h2]; exact canon_names hn hmap.names

theorem allAlone_none : ∀ {ops : List NOp} {w : NWorld}, AllAlone (fun _ => none) w ops
  | [], _ => trivial
  | op :: ops, w => by
    refine ⟨?_, fun _ _ _ => allAlone_none⟩
    cases op with
    | node j c m => exact fun g hg => by cases hg
    | _ => trivial

theorem valid_later {t : StrTable JVal} {n : SmNode} {v v2 : NWorld} {k : Nat} {more : List NOp}
    (kept : NodeKept U t n) (ht : v.base.strs = t)
    (hk : v.base.maps[k]? = some (Emitted.new ⟨(n.toStringWithGenerator none none).1, none,
      some (n.toStringWithGenerator none none).2⟩ true)) (e2 : v.runFrom more = .ok v2)
    (hg : ∀ op, .js op ∈ more → ¬ op.gives k) (hset : ∀ a, .js (.set k a) ∉ more) :
    ValidMap v2.base k := by
  subst ht
  have grown : ∃ x, v2.base.strs.array = v.base.strs.array ++ x := by
    obtain ⟨e', -, he⟩ := (show Lasting (fun t (_ : Emitted) => ∃ x, t.array = v.base.strs.array ++ x) from
      ⟨fun ⟨r, hr⟩ ⟨x, hx⟩ => ⟨x ++ r, by rw [hr, hx, List.append_assoc]⟩, fun h _ => h⟩).runNodes
        hk ⟨[], by simp⟩ hg hset e2
    exact he
  exact valid_of_tells kept.within kept.lined grown fun r hr f =>
    (Tells.lasting true _ _ f).runNodes hk (node_tells hr f _) hg hset e2

/-- The pair handed out by `toStringWithSourceMap()` of a node is valid whenever it is read later.

Missing: `null` as a file may be listed twice (`C60_null_twice`). -/
theorem C60_nodes_partial (ops more : List NOp) (w w1 w2 : NWorld) (i k : Nat)
    (r : NWorld.run ops = .ok w) (hs : ∀ op ∈ ops, Spec.NOp.Sized op)
    (e : (NOp.render i).run w = .ok (.pair k, w1)) (e2 : w1.runFrom more = .ok w2)
    (hg : ∀ op, .js op ∈ more → ¬ op.gives k) (hset : ∀ a, .js (.set k a) ∉ more) :
    ValidMap w2.base k := by
  have F := NFits.runFrom (U := fun f => ops.flatMap (NOp.supply f)) (given := fun _ => none) NFits.empty
    (fun op ho f v hv => List.mem_flatMap.2 ⟨op, ho, hv⟩) hs allAlone_none r
  simp only [NOp.run] at e
  split at e
  · cases e
  · cases e
  · rename_i n hn
    cases e
    have hk := F.kept n (List.mem_of_getElem? hn)
    refine valid_later hk ?_ ?_ e2 hg hset
    · rfl
    · exact List.getElem?_concat_length

/-- The pair handed out by `sourceAndMap()` of an object, or by `map()`, is valid whenever it is read later. -/
theorem C60_partial (ops more : List NOp) (w w2 : NWorld) (b : World) (j k : Nat) (m : Bool)
    (r : NWorld.run ops = .ok w) (hs : ∀ op ∈ ops, Spec.NOp.Sized op)
    (e : (JOp.sourceAndMap j true m).run w.base = .ok (.pair k, b))
    (e2 : ({ w with base := b } : NWorld).runFrom more = .ok w2)
    (hg : ∀ op, .js op ∈ more → ¬ op.gives k) (hset : ∀ a, .js (.set k a) ∉ more) :
    ValidMap w2.base k := by
  have F := NFits.runFrom (U := fun f => ops.flatMap (NOp.supply f)) (given := fun _ => none) NFits.empty
    (fun op ho f v hv => List.mem_flatMap.2 ⟨op, ho, hv⟩) hs allAlone_none r
  obtain ⟨v1, v2, e3, e4, rfl⟩ := (C59_object w j k m b).1 e
  have F1 := F.run (op := .node j true m) (given := fun _ => none) (fun f v hv => by simp [NOp.supply] at hv)
    trivial (fun g hg => by cases hg) e3
  simp only [NOp.run] at e4
  split at e4
  · cases e4
  · cases e4
  · rename_i n hn
    cases e4
    have hk := F1.kept n (List.mem_of_getElem? hn)
    refine valid_later hk ?_ ?_ e2 hg hset
    · rfl
    · exact List.getElem?_concat_length

/-! ## Files listed twice -/

/-- A list map whose mapping has no file, and a map with `null` as a file. -/
def c60Null : List NOp := [
  .js (.newSms "a".toList "n".toList (.plain [] [] [] "AAAA".toList) none none),
  .js (.sourceAndMap 0 false true),
  .js (.newSms "b".toList "n".toList (.emitted 0) none none),
  .js (.newSms "c".toList "n".toList (.plain [none] [] [] "AAAA".toList) none none),
  .js (.newConcat [.obj 1, .obj 2]),
  .js (.sourceAndMap 3 true true)]

set_option synthInstance.maxSize 1000 in
/-- `null` can be listed twice: once for no string, once for the string `null` in the string table. -/
theorem C60_null_twice : ((NWorld.run c60Null).toOption.bind fun w => readField w.base 1 .sources) =
    some (.list [none, none]) := by decide +kernel

/-! Non-trivial case: names and files shared by two maps, a replacement and a node. -/

def c60Program : List NOp := [
  .js (.newSms "ab;cd\n".toList "n".toList (.plain [some "x.js".toList, some "y.js".toList]
    [] [some "p".toList, some "q".toList] "AAAAA,ECAAC".toList) none none),
  .js (.newSms "ef\ngh".toList "n".toList (.plain [some "y.js".toList] [] [some "q".toList] "AAAAA;AACA".toList)
    none none),
  .js (.newOriginal "i\nj;k\n".toList "x.js".toList),
  .js (.newConcat [.obj 0, .obj 1, .obj 2]),
  .js (.newReplace (.obj 3)),
  .js (.replace 4 1 2 "z".toList)]

example : ∀ op ∈ c60Program, Spec.NOp.Sized op := by
  simp only [c60Program, List.forall_mem_cons, Spec.NOp.Sized, Spec.JOp.FewLines]
  unfold Spec.FewLines
  exact ⟨by decide, by decide, by decide, trivial, trivial, trivial, by simp⟩

set_option synthInstance.maxSize 1000 in
example : ((NWorld.run (c60Program ++ [.js (.sourceAndMap 4 true true)])).toOption.map fun w =>
    (readField w.base 0 .sources, readField w.base 0 .names, readField w.base 0 .mappings)) =
    some (some (.list [some "x.js".toList, some "y.js".toList]), some (.list [some "p".toList, some "q".toList]),
      some (.text "AAAAA,CAAA,CCAAC;AAAAA;AACA,EDDA;AACA,EAAE".toList)) := by decide +kernel

end WS
