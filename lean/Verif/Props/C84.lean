import Verif.Props.C65Names
import Verif.Proofs.Canonical
/-!
# C84: maps of edited code invent nothing

Claim: whatever the requests of the `ReplaceSource`s in an object are, the map of `sourceAndMap()` (with columns) has
no segment but those with the file, line and column of a character of the unedited code, and with its name or none;
and the map lists no file and no name but those of characters of the unedited code.
-/

namespace WS
open Spec

/-! ## Spec -/

/-- Every segment of the map of the pair `k` has the file, line and column of a character of `u`, and its name or no
name; every file and name listed is that of a character of `u`. -/
def Spec.InventsNothing (w : World) (k : Nat) (u : PlacedMarks) : Prop :=
  ∃ l ns s ps, Reads w k .sources (.list l) ∧ Reads w k .names (.list ns) ∧ Reads w k .mappings (.text s) ∧
    points (idTable l.length) (idTable ns.length) s = some ps ∧
    (∀ pt ∈ ps, ∀ x, pt.origin = some x → ∃ a : Place, some a ∈ u.map Prod.snd ∧
      l[x.source.toNat]? = some a.file ∧ x.line = a.line ∧ x.col = a.col ∧
      (x.name = none ∨ (x.name.map fun n => ns[n.toNat]?) = a.name.map some)) ∧
    (∀ f ∈ l, ∃ a : Place, some a ∈ u.map Prod.snd ∧ a.file = f) ∧
    (∀ n ∈ ns, ∃ a : Place, some a ∈ u.map Prod.snd ∧ a.name = some n)

/-! ## Nodes -/

/-- `ReplaceSource::node` brings in no new places, whatever the requests are. -/
theorem leafLoop_from : ∀ (rs : List Repl) (R : List (Str × Option Origin)),
    PlacesIn (origins (leafLoop R rs)) (origins R)
  | [], R => .refl _
  | r :: rs, R => by
    have ih := leafLoop_from rs
    rw [leafLoop]
    cases h1 : splitLeaves R r.stop with
    | ok lr =>
      obtain ⟨l1, r1⟩ := lr
      have p1 := places_split h1
      dsimp only
      cases h2 : splitLeaves l1 r.start with
      | ok lr =>
        obtain ⟨l2, r2⟩ := lr
        have p2 := places_split h2
        dsimp only
        rw [origins_append, origins_append]
        refine .append ((ih l2).mono fun o ho => p1.1 o (p2.1 o ho)) (.append ?_ ?_)
        · exact places_replLeaf ((headOrigin_from r2).mono fun o ho => p1.1 o (p2.2 o ho)) _
        · exact (PlacesIn.refl _).mono p1.2
      | error q =>
        dsimp only
        rw [origins_append, origins_append]
        refine .append ((ih l1).mono p1.1) (.append ?_ ?_)
        · first
            | exact places_replLeaf ((headOrigin_from r1).mono p1.2) _
            | (intro o ho; simp [origins] at ho)
        · exact (PlacesIn.refl _).mono p1.2
    | error q =>
      dsimp only
      cases h2 : splitLeaves R r.start with
      | ok lr =>
        obtain ⟨l2, r2⟩ := lr
        have p2 := places_split h2
        dsimp only
        rw [origins_append]
        exact .append ((ih l2).mono p2.1) (places_replLeaf ((headOrigin_from r2).mono p2.2) _)
      | error q =>
        dsimp only
        rw [origins_append]
        exact .append (ih R) (fun o ho => by simp [origins] at ho)

/-- What is rendered mentions the origins of the strings only. -/
theorem SmNode.render_from {n : SmNode} (hl : ∀ l ∈ n.leaves, LineOk l) {r : StringWithSourceMap}
    (h : n.toStringWithSourceMap none none = .ok r) :
    ∃ qs, mapPoints r.map = some qs ∧ (∀ p ∈ qs, ∀ o, p.origin = some o → some o ∈ origins n.leaves) ∧
      (∀ s ∈ r.map.sources, ∃ o, some o ∈ origins n.leaves ∧ o.source = s) ∧
      (∀ s ∈ r.map.names, ∃ o, some o ∈ origins n.leaves ∧ o.name = some s) := by
  have hi := SmNode.walk_ok n (c := WalkCtx.new none none)
    ⟨Generator.new_ok _ _ _, fun _ => List.Pairwise.nil, rfl, Nat.le_refl _⟩ hl
  have hls := SmNode.walk_lists n (c := WalkCtx.new none none) ⟨rfl, rfl⟩
  obtain ⟨-, g', hg⟩ := node_map h
  obtain ⟨m, e1, e2, e3, -, e4⟩ := Generator.toSourceMap_ok hi.ok (by
    rw [MappingList.sort_list hi.truthful]; exact sortBy_sorted _)
  have hm : m = r.map := by
    have := e1.symm.trans hg
    cases this; rfl
  subst hm
  have from_ : ∀ m ∈ (n.walk (WalkCtx.new none none)).map.mappings.list, ∃ o ∈ origins n.leaves,
      ∃ g, m = mapAt g o := by
    intro m hm
    have h1 := congrArg Core.mappings (SmNode.walk_core n (WalkCtx.new none none))
    have h1 : (n.walk (WalkCtx.new none none)).map.mappings = (Core.new.walk n.leaves).mappings := h1
    rw [h1] at hm
    rcases Core.walk_from n.leaves Core.new m hm with h | ⟨o', h1, h2⟩
    · simp [Core.new, MappingList.new] at h
    · exact ⟨o', h1, _, h2⟩
  refine ⟨_, e4, ?_, ?_, ?_⟩
  · intro p hp o ho
    obtain ⟨m, hm, rfl⟩ := List.mem_map.1 hp
    obtain ⟨o', h1, g, rfl⟩ := from_ m ((MappingList.sort_perm _).mem_iff.1 hm)
    rw [mapAt_origin] at ho
    exact (show o' = some o from ho) ▸ h1
  · intro s hs
    rw [e2, hls.sources] at hs
    obtain ⟨m, hm, hms⟩ := List.mem_filterMap.1 ((mem_firsts _ _).1 hs).1
    obtain ⟨o', h1, g, rfl⟩ := from_ m hm
    cases o' with
    | none => cases hms
    | some o => exact ⟨o, h1, Option.some.inj hms⟩
  · intro s hs
    rw [e3, hls.names] at hs
    obtain ⟨m, hm, hms⟩ := List.mem_filterMap.1 ((mem_firsts _ _).1 hs).1
    obtain ⟨o', h1, g, rfl⟩ := from_ m hm
    cases o' with
    | none => cases hms
    | some o => exact ⟨o, h1, hms⟩

theorem points_nameRange {n : Nat} {ss : List Int} {m : Str} {ps : List Point}
    (h : points ss (idTable n) m = some ps) : ∀ p ∈ ps, ∀ o, p.origin = some o → ∀ x, o.name = some x → x.toNat < n := by
  unfold points at h
  cases hd : decode m with
  | none => rw [hd] at h; cases h
  | some gs => rw [hd] at h; exact resolveAll_nameRange h

/-! ## Objects -/

/-- The strings of an object's node come from places of the unedited code. -/
theorem unedited_unfolds {w : World} {A : AHeap} {st : List JThing} {made : List JOp} {mod : Bool}
    (I : w.Inv A st) (L : w.Labels made)
    (hr : ∀ op ∈ made, Spec.JOp.Exact op) (hm : ∀ op ∈ made, Spec.JOp.makes op = true)
    {src' : Src} {t : Tree} (u : Unfolds A src' t) :
    ∀ src, tr (w.objs.map JObj.ptr) src = some src' → ∀ n, Tree.itemNode true mod t = .ok n →
      ∃ v, JUnedited st made src (placed w.strs v) ∧ PlacesIn (origins n.leaves) (v.map Prod.snd) := by
  have single : ∀ {src' : Src} {t : Tree}, Unfolds A src' t → t.IsSingle → ∀ src,
      tr (w.objs.map JObj.ptr) src = some src' → ∀ n, Tree.itemNode true mod t = .ok n →
      ∃ v, JUnedited st made src (placed w.strs v) ∧ PlacesIn (origins n.leaves) (v.map Prod.snd) := by
    intro src' t u ht src e n hn
    obtain ⟨⟨j, v, x, rfl, hj⟩, hfl⟩ := leaf_filed I L hr hm u ht e hn
    obtain ⟨hp, -, hfull⟩ := JPlaces.of_unfolds I L hr hm u _ e (.leaf hj) n hn
    have hsub := full_sublist n.leaves (hfull (.leaf hj))
    exact ⟨_, .leaf hj hp, fun o ho => ⟨o, hsub.subset ho, .inl rfl⟩⟩
  induction u with
  | str s =>
    intro src e n hn
    cases hn
    cases src with
    | str s' =>
      cases e
      have hpl : placed w.strs (uniform none s) = s.map fun c => (c, none) := by rw [placed_uniform]; rfl
      exact ⟨uniform none s, by rw [hpl]; exact .str s, fun o ho => by simp [origins, SmNode.leaves] at ho⟩
    | obj j =>
      simp only [tr] at e
      cases hp : (w.objs.map JObj.ptr)[j]? with
      | none => rw [hp] at e; cases e
      | some p => rw [hp] at e; cases e
  | raw hA => exact single (.raw hA) trivial
  | original hA => exact single (.original hA) trivial
  | l2l hA => exact single (.l2l hA) trivial
  | sms hA => exact single (.sms hA) trivial
  | @prefixed i p c t hA hc ih =>
    intro src e n hn
    cases src with
    | str s => cases e
    | obj j =>
      obtain ⟨o, ho, rfl⟩ := tr_obj_inv e
      obtain ⟨y, hy, sim⟩ := I.sim.get' ho
      generalize o.kind = k at sim
      cases sim with
      | leaf hk hA' ha' => rw [hA] at hA'; cases hA'; cases ha'
      | @prefixed _ c0 _ hA' hc' =>
        rw [hA] at hA'; cases hA'
        change Tree.node true mod (.prefixed _ t) = .ok n at hn
        rw [Tree.node] at hn
        cases hl : t.node true mod with
        | error z => rw [hl] at hn; cases hn
        | ok m =>
          rw [hl] at hn; cases hn
          have hit : Tree.itemNode true mod t = .ok m := by
            cases t <;> first | exact hl | cases hl
          obtain ⟨v, v1, v2⟩ := ih _ hc' _ hit
          refine ⟨v, .prefixed hy v1, ?_⟩
          rw [(prefixNode_leaves p (Tree.node_isNode _ _ t m hl)).2, prefixLeaves_origins]
          exact v2
      | replaced hA' _ => rw [hA] at hA'; cases hA'
      | joined hA' _ => rw [hA] at hA'; cases hA'
  | @replace i c cs t hA hc ih =>
    intro src e n hn
    cases src with
    | str s => cases e
    | obj j =>
      obtain ⟨o, ho, rfl⟩ := tr_obj_inv e
      obtain ⟨y, hy, sim⟩ := I.sim.get' ho
      generalize o.kind = k at sim
      cases sim with
      | leaf hk hA' ha' => rw [hA] at hA'; cases hA'; cases ha'
      | prefixed hA' hc' => rw [hA] at hA'; cases hA'
      | @replaced c0 _ rs hA' hc' =>
        rw [hA] at hA'; cases hA'
        change Tree.node true mod (.replace t _) = .ok n at hn
        rw [Tree.node] at hn
        cases hl : t.node true mod with
        | error z => rw [hl] at hn; cases hn
        | ok m =>
          rw [hl] at hn
          have hit : Tree.itemNode true mod t = .ok m := by
            cases t <;> first | exact hl | cases hl
          change replaceNode m (sortedCalls (rs.map JRequest.call)) = .ok n at hn
          obtain ⟨n', g1, -, g2⟩ := replaceNode_leaves (Tree.node_isNode _ _ t m hl) (sortedCalls (rs.map JRequest.call))
          rw [hn] at g1; cases g1
          obtain ⟨v, v1, v2⟩ := ih _ hc' _ hit
          refine ⟨v, .replaced hy v1, ?_⟩
          rw [g2]
          exact (leafLoop_from _ _).trans v2
      | joined hA' _ => rw [hA] at hA'; cases hA'
  | @concat i is ts hA hl hk ih =>
    intro src e n hn
    cases src with
    | str s => cases e
    | obj j =>
      obtain ⟨o, ho, rfl⟩ := tr_obj_inv e
      obtain ⟨y, hy, sim⟩ := I.sim.get' ho
      generalize o.kind = k at sim
      cases sim with
      | leaf hk hA' ha' => rw [hA] at hA'; cases hA'; cases ha'
      | prefixed hA' hc' => rw [hA] at hA'; cases hA'
      | replaced hA' _ => rw [hA] at hA'; cases hA'
      | @joined cs its is' hA' hi =>
        rw [hA] at hA'; cases hA'
        have hlen : its.length = is.length := by simpa using congrArg List.length hi
        change Tree.node true mod (.concat ts) = .ok n at hn
        rw [Tree.node, Tree.nodes_eq] at hn
        cases hxs : allM (Tree.itemNode true mod) ts with
        | error z => rw [hxs] at hn; cases hn
        | ok xs =>
          rw [hxs] at hn; cases hn
          obtain ⟨q1, q2⟩ := allM_each hxs
          obtain ⟨vs, d1, d2⟩ := choose_list xs (P := fun k x m => ∃ i, its[k]? = some i ∧
            JUnedited st made i (placed w.strs m) ∧ PlacesIn (origins x.leaves) (m.map Prod.snd)) fun k x hx => by
              have hk' : k < xs.length := (List.getElem?_eq_some_iff.1 hx).1
              have e2 : is[k]? = some (is[k]'(by omega)) := List.getElem?_eq_getElem (by omega)
              have e3 : ts[k]? = some (ts[k]'(by omega)) := List.getElem?_eq_getElem (by omega)
              have e1 : its[k]? = some (its[k]'(by omega)) := List.getElem?_eq_getElem (by omega)
              have e4 : tr (w.objs.map JObj.ptr) (its[k]'(by omega)) = some (is[k]'(by omega)) := by
                have := congrArg (fun l => l[k]?) hi
                simpa [List.getElem?_map, e1, e2] using this
              obtain ⟨v, h1, h2⟩ := ih k _ _ e2 e3 _ e4 _ (q2 k _ _ e3 hx)
              exact ⟨v, _, e1, h1, h2⟩
          refine ⟨vs.flatten, ?_, ?_⟩
          · rw [show placed w.strs vs.flatten = (vs.map (placed w.strs)).flatten from by
              rw [placed, List.map_flatten]; rfl]
            refine .joined hy (by simp; omega) fun k i m h1 h2 => ?_
            have hlt := (List.getElem?_eq_some_iff.1 h1).1
            have hx : xs[k]? = some (xs[k]'(by omega)) := List.getElem?_eq_getElem (by omega)
            rw [List.getElem?_map] at h2
            obtain ⟨v, hv, rfl⟩ := Option.map_eq_some_iff.1 h2
            obtain ⟨i', h3, h4, -⟩ := d2 k _ v hx hv
            rw [h1] at h3; cases h3; exact h4
          · rw [mkVec_leaves]
            intro o ho
            obtain ⟨q, hq, hqo⟩ := List.mem_map.1 ho
            obtain ⟨x, hx, hqx⟩ := List.mem_flatMap.1 hq
            obtain ⟨k, hk'⟩ := List.getElem?_of_mem hx
            have hlt := (List.getElem?_eq_some_iff.1 hk').1
            have hv : vs[k]? = some (vs[k]'(by omega)) := List.getElem?_eq_getElem (by omega)
            obtain ⟨_, _, _, h5⟩ := d2 k x _ hk' hv
            obtain ⟨a, ha, hae⟩ := h5 o (List.mem_map.2 ⟨q, hqx, hqo⟩)
            refine ⟨a, ?_, hae⟩
            rw [List.map_flatten]
            exact List.mem_flatten.2 ⟨_, List.mem_map.2 ⟨_, List.mem_of_getElem? hv, rfl⟩, ha⟩

/-! ## The claim -/

theorem World.emit_invents {U : Pool} {st : List JThing} {made : List JOp} {w w1 w2 : World}
    {A : AHeap} {j k : Nat} {module_ : Bool} (I : w.Inv A st) (L : w.Labels made) (W : w.Within U) (hl : w.Lined)
    (hst : ∀ o ∈ w.log, Spec.Op.StableMap o)
    (hr : ∀ op ∈ made, Spec.JOp.Exact op) (hmk : ∀ op ∈ made, Spec.JOp.makes op = true)
    (e : (JOp.sourceAndMap j true module_).run w = .ok (.pair k, w1)) (e2 : World.Lasts k w1 w2) :
    ∃ u, JUnedited st made (.obj j) u ∧ InventsNothing w2 k u := by
  simp only [JOp.run] at e
  unfold World.emit at e
  split at e
  · cases e
  rename_i o hob
  split at e
  · cases e
  simp only [if_true, Except.bind_ok_iff] at e
  obtain ⟨⟨a, w3⟩, h1, h2⟩ := e
  dsimp only at h2
  split at h2
  · rename_i n
    have hw := W.call (op := .node o.ptr true module_) trivial
    have hln := hl.call (op := .node o.ptr true module_) trivial
    rw [h1] at hw hln
    obtain ⟨g1, g2, g3, g4⟩ := hw
    obtain ⟨l1, l2, -⟩ := hln
    dsimp only at g1 g2 g3 g4 l1 l2
    obtain ⟨h', hn⟩ : ∃ h', apiNode w.heap o.ptr true module_ = .ok (n, h') := by
      simp only [World.call, Op.run] at h1
      cases hn : apiNode w.heap o.ptr true module_ with
      | error e => rw [hn] at h1; cases h1
      | ok p => rw [hn] at h1; simp only [Except.map] at h1; cases h1; exact ⟨_, rfl⟩
    obtain ⟨t, u, ht⟩ := (api_node_iff (stable_of_ops I.log hst) I.abs _ _ _ _).1 ⟨h', hn⟩
    have hit : Tree.itemNode true module_ t = .ok n := by
      cases t <;> first | exact ht | cases ht
    obtain ⟨v, v1, v2⟩ := unedited_unfolds I L hr hmk u (.obj j) (tr_obj hob) _ hit
    cases h2
    have hin : n.In (hasDom w.strs) := SmNode.In.mono (dom_sub_has _) g2
    have grown : ∃ x, w2.strs.array = w.strs.array ++ x := by
      have := e2.array List.getElem?_concat_length
      rwa [← g3]
    obtain ⟨r, _, hrr, -⟩ := C09_shown n none none (SmNode.Lined.leaves l2)
    obtain ⟨qs, hq, f1, f2, f3⟩ := SmNode.render_from (SmNode.Lined.leaves l2) hrr
    have tells : ∀ f, ∃ e, w2.maps[w.maps.length]? = some e ∧ e.Tells true r.source r.map f w2.strs :=
      fun f => e2 _ (Tells.lasting true _ _ f) _ List.getElem?_concat_length (node_tells hrr f _)
    have hin2 := hin.mono (hasDom_grow grown)
    obtain ⟨-, g', hg⟩ := node_map hrr
    have hmap := ((toStringWithGenerator_in hin2 none none).toSourceMap hg).1
    have hv := StrTable.values_get (t := w2.strs) (ids := r.map.sources) fun i hi => hmap.sources i hi
    have hnv := StrTable.values_get (t := w2.strs) (ids := r.map.names) fun i hi => hmap.names i hi
    -- an origin of the node as a place of the unedited code
    have placeOf : ∀ y : Origin, some y ∈ origins n.leaves → ∃ a : Place,
        some a ∈ (placed w.strs v).map Prod.snd ∧ w2.strs.name y.source = a.file ∧ y.line = a.line ∧ y.col = a.col ∧
        (y.name = none ∨ y.name.map w2.strs.name = a.name) := by
      intro y hy
      obtain ⟨a, ha, hae⟩ := v2 y hy
      have hyh : OriginHas w.strs y := by
        obtain ⟨q, hq, hqy⟩ := List.mem_map.1 hy
        exact hin.origins q hq y hqy
      refine ⟨place w.strs a, ?_, ?_⟩
      · obtain ⟨q, hq, hqa⟩ := List.mem_map.1 ha
        exact List.mem_map.2 ⟨_, List.mem_map.2 ⟨q, hq, rfl⟩, by simp [hqa]⟩
      · have hpy := place_mono grown hyh
        have hfile : w2.strs.name y.source = w.strs.name y.source := congrArg Place.file hpy
        have hname : y.name.map w2.strs.name = y.name.map w.strs.name := congrArg Place.name hpy
        rcases hae with rfl | rfl
        · exact ⟨hfile, rfl, rfl, .inr hname⟩
        · exact ⟨hfile, rfl, rfl, .inl rfl⟩
    refine ⟨_, v1, ?_⟩
    rw [mapPoints, points_rename, points_renameName] at hq
    cases hp : points (idTable r.map.sources.length) (idTable r.map.names.length) r.map.mappings with
    | none => rw [hp] at hq; cases hq
    | some ps =>
      rw [hp] at hq
      have hq : qs = (ps.map (renameName r.map.names)).map (renamePoint r.map.sources) := by
        simpa using hq.symm
      refine ⟨r.map.sources.map w2.strs.name, r.map.names.map w2.strs.name, r.map.mappings, ps, ?_, ?_, ?_,
        by rw [List.length_map, List.length_map]; exact hp, ?_, ?_, ?_⟩
      · obtain ⟨e, k1, k2⟩ := tells .sources
        exact Tells.reads k1 k2 ⟨_, hv, rfl⟩
      · obtain ⟨e, k1, k2⟩ := tells .names
        refine Tells.reads k1 k2 ?_
        simp only [Displays, if_true]
        exact ⟨_, hnv, rfl⟩
      · obtain ⟨e, k1, k2⟩ := tells .mappings
        exact Tells.reads k1 k2 rfl
      · intro pt hpt x hx
        have r1 := points_inRange hp pt hpt x hx
        have r2 := points_nameRange hp pt hpt x hx
        have hy := f1 (renamePoint r.map.sources (renameName r.map.names pt))
          (by rw [hq]; exact List.mem_map_of_mem (List.mem_map_of_mem hpt))
          (renameOrigin r.map.sources (renameNameOrigin r.map.names x))
          (by simp [renamePoint, renameName, hx])
        obtain ⟨a, a1, a2, a3, a4, a5⟩ := placeOf _ hy
        refine ⟨a, a1, ?_, a3, a4, ?_⟩
        · rw [← a2, List.getElem?_map, List.getElem?_eq_getElem r1]
          simp [renameOrigin, renameNameOrigin, List.getElem?_eq_getElem r1]
        · cases hxn : x.name with
          | none => exact .inl rfl
          | some z =>
            have r3 := r2 z hxn
            rcases a5 with h | h
            · simp [renameOrigin, renameNameOrigin, hxn] at h
            · refine .inr ?_
              rw [← h]
              simp [renameOrigin, renameNameOrigin, hxn, List.getElem?_eq_getElem r3]
      · intro f hf
        obtain ⟨s, hs, rfl⟩ := List.mem_map.1 hf
        obtain ⟨y, hy, rfl⟩ := f2 s hs
        obtain ⟨a, a1, a2, -⟩ := placeOf y hy
        exact ⟨a, a1, a2.symm⟩
      · intro f hf
        obtain ⟨s, hs, rfl⟩ := List.mem_map.1 hf
        obtain ⟨y, hy, hys⟩ := f3 s hs
        obtain ⟨a, a1, -, -, -, a5⟩ := placeOf y hy
        rw [hys] at a5
        exact ⟨a, a1, (a5.resolve_left (by simp)).symm⟩
  · cases h2

/-- C84 for programs that supply their maps; `u` is the unedited code of the object. -/
theorem C84_partial (ops more : List JOp) (w w1 w2 : World) (j k : Nat) (module_ : Bool) (u : PlacedMarks)
    (r : World.run ops = .ok w) (hp : ∀ op ∈ ops, op.Proper) (hf : ∀ op ∈ ops, Spec.JOp.FewLines op)
    (hr : ∀ op ∈ ops, Spec.JOp.Exact op) (hu : JUnedited (jthings ops) (jmade ops) (.obj j) u)
    (e : (JOp.sourceAndMap j true module_).run w = .ok (.pair k, w1)) (e2 : w1.runFrom more = .ok w2)
    (hg : ∀ op ∈ more, ¬ op.gives k) (hset : ∀ a, .set k a ∉ more) : InventsNothing w2 k u := by
  obtain ⟨A, I⟩ := World.run_inv hp r
  have W := World.run_within ops
  rw [r] at W
  have W : w.Within (supplied ops) := W
  obtain ⟨-, hlog⟩ := World.run_log r
  have hst : ∀ o ∈ w.log, Spec.Op.StableMap o := by
    intro o ho
    obtain ⟨op, hop, hof⟩ := hlog o ho
    cases o <;> try trivial
    obtain ⟨-, n, m, o', i, rfl, -, h1⟩ := hof
    obtain ⟨⟨ss, cs, ns, mp, rfl, -⟩, -⟩ := hr _ hop
    obtain ⟨-, d, hd, -⟩ := h1 ss cs ns mp rfl
    exact .inl (by rw [hd]; rfl)
  have T : Together (jmade ops) (jthings ops) := by
    exact together ops (made := []) (st := []) ⟨rfl, fun j op x h => by simp at h⟩
  obtain ⟨u', h1, h2⟩ := World.emit_invents I (World.run_labels hp r) W (World.run_lined hf r) hst
    (fun op h => hr op (List.mem_filter.1 h).1) (fun op h => (List.mem_filter.1 h).2) e (.of_run e2 hg hset)
  rw [hu.unique T h1] at h2
  exact h2

/-! Non-trivial case: a request that ends before it begins, one beyond the end of the code, and a deletion, followed by
another file. The places of what is kept are wrong in part (as in `C65_not_general`), but none is invented. -/

/-- The program. -/
def c84Program : List JOp :=
  [.newSms "abcd\n".toList "s.js".toList (.plain [some "h.js".toList] [] [some "n".toList, some "k".toList]
     "AAAAA,CAAK,CAAIC".toList) none none,
   .newReplace (.obj 0), .replace 1 3 0 "XY".toList, .replace 1 9 12 "Z".toList, .replace 1 2 3 [],
   .newOriginal "x".toList "x.js".toList, .newConcat [.obj 1, .obj 2]]

/-- Its last object before the requests. -/
def c84Code : PlacedMarks := c65NamesCode ++ c63From "x" "x.js" 1 0 none

theorem c84_leaf : JPlaces (jthings c84Program) (jmade c84Program) (.obj 0) c65NamesCode := by
  have e : c65NamesCode = placedBy (told [some "h.js".toList] [some "n".toList, some "k".toList]
      [⟨1, 0, some ⟨0, 1, 0, some 0⟩⟩, ⟨1, 1, some ⟨0, 1, 5, none⟩⟩, ⟨1, 2, some ⟨0, 1, 9, some 1⟩⟩]) (1, 0)
      "abcd\n".toList := by decide +kernel
  rw [e]
  exact .sms (n := "s.js".toList) (cs := []) (mp := "AAAAA,CAAK,CAAIC".toList) (o := none) rfl c65Names_points

example : (∀ op ∈ c84Program, op.Proper) ∧ (∀ op ∈ c84Program, Spec.JOp.FewLines op) ∧
    ∀ op ∈ c84Program, Spec.JOp.Exact op := by
  refine ⟨?_, ?_, ?_⟩
  · simp [c84Program, JOp.Proper]
    simp only [Spec.Proper]
    decide +kernel
  · simp only [c84Program, List.forall_mem_cons, Spec.JOp.FewLines]
    unfold Spec.FewLines
    exact ⟨by decide, trivial, by decide, by decide, by decide, by decide, trivial, by simp⟩
  · intro op h
    simp only [c84Program, List.mem_cons, List.not_mem_nil, or_false] at h
    rcases h with rfl | rfl | rfl | rfl | rfl | rfl | rfl
    · exact ⟨⟨_, _, _, _, rfl, _, c65Names_points, by simp [Point.Small], by simp [Point.Lt], by decide +kernel⟩,
        fun i hi => by cases hi⟩
    all_goals trivial

example : JUnedited (jthings c84Program) (jmade c84Program) (.obj 3) c84Code := by
  have e : c84Code = [c65NamesCode, ownPlaces (some "x.js".toList) (1, 0) (segments "x".toList)].flatten := by
    decide +kernel
  rw [e]
  refine .joined (items := [.obj 1, .obj 2]) (by decide +kernel) rfl ?_
  intro k i m hi hm
  match k, hi, hm with
  | 0, hi, hm =>
    cases hi; cases hm
    exact .replaced (c := .obj 0) (rs := [⟨3, 0, "XY".toList⟩, ⟨9, 12, "Z".toList⟩, ⟨2, 3, []⟩]) (by decide +kernel)
      (.leaf rfl c84_leaf)
  | 1, hi, hm => cases hi; cases hm; exact .leaf rfl (.original rfl)
  | k + 2, hi, hm => simp at hi

/-- The map: `b` after `XY` has the place of `X` … and the deleted `cd` has left a segment. -/
example : ((World.run c84Program).toOption.bind fun w =>
    ((JOp.sourceAndMap 3 true true).run w).toOption.map fun x => (x.1,
      [JField.source, .sources, .names, .mappings].map fun f => ((JOp.get 0 f).run x.2).toOption.map Prod.fst)) =
    some (.pair 0, [some (.field (.text "aXYb\nZx".toList)),
      some (.field (.list [some "h.js".toList, some "x.js".toList])),
      some (.field (.list [some "n".toList, some "k".toList])),
      some (.field (.text "AAAAA,CAAK,EAALA,AAAK,CAAIC;CCAT".toList))]) := by decide +kernel

end WS
