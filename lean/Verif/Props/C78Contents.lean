import Verif.Props.C78
import Verif.Props.C76
import Verif.Proofs.JsList
/-!
# C78: the contents of a pair made a source again

`sourcesContent` survives the rounds too: the map that is moved keeps its table of contents, and the files are
the same.
-/

namespace WS
open Spec

/-! ## The table that is moved -/

/-- The pair still has its map, with these contents. -/
def Emitted.Bears (cts : List (Int × Int)) (e : Emitted) : Prop :=
  e.modified = false ∧ ∃ wm g, e.wasm = some wm ∧ wm.gen = some g ∧ ∀ s, g.contents.lookup s = cts.lookup s

theorem toSourceMap_keeps {g g' : Generator} {m : SourceMap} (h : g.toSourceMap = .ok (m, g')) :
    g'.contents = g.contents := by
  simp only [Generator.toSourceMap, Generator.serializeMappings] at h
  split at h
  · cases h
  · rename_i e1
    split at e1
    · cases e1; cases h; rfl
    · cases e1

theorem getMap_gen {wm wm' : WasmMap} {m : SourceMap} (h : wm.getMap = .ok (m, wm')) {g : Generator}
    (hg : wm.gen = some g) : ∃ g', wm'.gen = some g' ∧ g'.contents = g.contents := by
  unfold WasmMap.getMap at h
  split at h
  · cases h; exact ⟨g, hg, rfl⟩
  · rw [hg] at h
    dsimp only at h
    split at h
    · cases h
    · rename_i h1
      cases h
      exact ⟨_, rfl, toSourceMap_keeps h1⟩

theorem Bears.lasting (cts : List (Int × Int)) : Lasting (fun _ e => e.Bears cts) := by
  refine ⟨fun _ h => h, ?_⟩
  rintro w e e' f v ⟨h1, wm, g, h2, h3, h4⟩ h
  obtain ⟨c1, -, c2, -⟩ := Emitted.get_changes h
  refine ⟨c2.trans h1, ?_⟩
  rcases c1 with c | ⟨wm1, m, wm', a, b, c⟩
  · exact ⟨wm, g, c.trans h2, h3, h4⟩
  · rw [h2] at a; cases a
    obtain ⟨g', h5, h6⟩ := getMap_gen b h3
    exact ⟨wm', g', c, h5, fun s => by rw [h6]; exact h4 s⟩

/-- The map bears a table that says what is read of the contents. -/
def Bearing (w : World) (k : Nat) (fs : List JVal) (cts : List (Int × Int)) : Prop :=
  ∃ (e : Emitted) (S : List Int), w.maps[k]? = some e ∧ e.Bears cts ∧ (∀ i ∈ S, Canon w.strs (fun _ => True) i) ∧ S.map w.strs.name = fs ∧
    (∀ i ∈ S, ∀ v, cts.lookup i = some v → w.strs.Has v) ∧
    Reads w k .contents (contentsRead ((S.filterMap fun s => cts.lookup s).map w.strs.name))

theorem World.runFrom_ext : ∀ {ops : List JOp} {w w' : World}, w.runFrom ops = .ok w' → w.strs.Ext w'.strs
  | [], _, _, e => by cases e; exact .rfl' _
  | op :: ops, w, w', e => by
    simp only [World.runFrom, Except.bind_ok_iff] at e
    obtain ⟨⟨_, w1⟩, h1, h2⟩ := e
    exact (JOp.run_grown h1).ext.trans (World.runFrom_ext h2)

theorem Bearing.lasts {w w' : World} {k : Nat} {more : List JOp} {fs : List JVal} {cts : List (Int × Int)}
    (e : w.runFrom more = .ok w') (hg : ∀ op ∈ more, ¬ op.gives k) (hset : ∀ a, .set k a ∉ more)
    (h : Bearing w k fs cts) : Bearing w' k fs cts := by
  obtain ⟨x, S, h1, h2, h3, h4, h5, h6⟩ := h
  have ext := World.runFrom_ext e
  obtain ⟨x', k1, k2⟩ := World.Lasts.of_run e hg hset _ (Bears.lasting cts) x h1 h2
  refine ⟨x', S, k1, k2, fun i hi => (h3 i hi).grow ext, ?_, fun i hi v hv => ((h5 i hi v hv).mono ext.array).1, ?_⟩
  · rw [← h4]
    exact List.map_congr_left fun i hi => (StrTable.Has.mono ext.array (stands_has (h3 i hi).stands)).2
  · have : (S.filterMap fun s => cts.lookup s).map w'.strs.name = (S.filterMap fun s => cts.lookup s).map w.strs.name := by
      refine List.map_congr_left fun i hi => ?_
      obtain ⟨s, hs, e⟩ := List.mem_filterMap.1 hi
      exact (StrTable.Has.mono ext.array (h5 s hs i e)).2
    rw [this]
    exact reads_lasts e hg hset h6

/-! ## New pairs -/

theorem World.emit_bearing {U : Pool} {st : List JThing} {made : List JOp} {w w1 : World} {A : AHeap}
    {j k : Nat} {module_ : Bool} (I : w.Inv A st) (L : w.Labels made) (W : w.Within U) (hl : w.Lined)
    (hpos : Heap.In posDom w.heap)
    (hst : ∀ o ∈ w.log, Spec.Op.StableMap o) (hr : ∀ op ∈ made, Spec.JOp.Exact op)
    (hmk : ∀ op ∈ made, Spec.JOp.makes op = true) (hu : Unreplaced st true (.obj j))
    (e : (JOp.sourceAndMap j true module_).run w = .ok (.pair k, w1)) {fs : List JVal}
    (hfs : Reads w1 k .sources (.list fs)) :
    ∃ o n h', w.objs[j]? = some o ∧ apiNode w.heap o.ptr true module_ = .ok (n, h') ∧ Bearing w1 k fs n.cts := by
  simp only [JOp.run] at e
  unfold World.emit at e
  split at e
  · cases e
  rename_i o ho
  split at e
  · cases e
  simp only [if_true, Except.bind_ok_iff] at e
  obtain ⟨⟨a, w3⟩, h1, h2⟩ := e
  dsimp only at h2
  split at h2
  · rename_i n
    have hw := W.call (op := .node o.ptr true module_) trivial
    have hln := hl.call (op := .node o.ptr true module_) trivial
    rw [h1] at hw hln
    obtain ⟨g1, g2, g3, g4⟩ := hw
    obtain ⟨l1, l2, -⟩ := hln
    dsimp only at g1 g2 g3 g4 l1 l2
    obtain ⟨h', hn⟩ : ∃ h', apiNode w.heap o.ptr true module_ = .ok (n, h') := by
      simp only [World.call, Op.run] at h1
      cases hn : apiNode w.heap o.ptr true module_ with
      | error e => rw [hn] at h1; cases h1
      | ok p => rw [hn] at h1; simp only [Except.map] at h1; cases h1; exact ⟨_, rfl⟩
    have hp : n.In posDom := (Op.run_in (op := .node o.ptr true module_) (a := .node n) (h' := h') hpos trivial
      (by simp only [Op.run]; rw [hn]; rfl)).1
    obtain ⟨t, u, ht⟩ := (api_node_iff (stable_of_ops I.log hst) I.abs _ _ _ _).1 ⟨h', hn⟩
    have hit : Tree.itemNode true module_ t = .ok n := by
      cases t <;> first | exact ht | cases ht
    obtain ⟨-, k2, -⟩ := JPlaces.of_unfolds I L hr hmk u (.obj j) (tr_obj ho) hu _ hit
    refine ⟨o, n, h', ho, hn, ?_⟩
    have hin : n.In (hasDom w.strs) := SmNode.In.mono (dom_sub_has _) g2
    have hc := canonDom_of g2 hp
    obtain ⟨r, _, hr, -⟩ := C09_attribution_partial n none none (fun l hm o ho =>
      ⟨fun e => (by rw [k2 l hm e] at ho; cases ho), SmNode.Lined.leaves l2 l hm o ho⟩)
    obtain ⟨-, g', hg⟩ := node_map hr
    have hmap := ((toStringWithGenerator_in hin none none).toSourceMap hg).1
    have hcan := ((toStringWithGenerator_in hc none none).toSourceMap hg).1.sources
    have hct := C52_tree n none none r hr
    cases h2
    have g3 : w3.strs = w.strs := g3
    rw [← g3] at hmap hcan
    have hv := StrTable.values_get (t := w3.strs) (ids := r.map.sources) fun i hi => hmap.sources i hi
    have hx := StrTable.values_get (t := w3.strs) (ids := r.map.sourcesContent) fun i hi => hmap.contents i hi
    have hs := Tells.reads (w := { w3 with maps := w.maps ++ [_] }) (k := w.maps.length) List.getElem?_concat_length
      (node_tells hr .sources _) ⟨_, hv, rfl⟩
    have hs2 := Tells.reads (w := { w3 with maps := w.maps ++ [_] }) (k := w.maps.length) List.getElem?_concat_length
      (node_tells hr .contents _) ⟨_, hx, rfl⟩
    refine ⟨_, r.map.sources, List.getElem?_concat_length, ⟨rfl, _, _, rfl, rfl, fun s => ?_⟩, hcan, ?_, ?_, ?_⟩
    · have : (n.toStringWithGenerator none none).2.contents = enterAll [] n.cts := walk_contents n (WalkCtx.new none none)
      rw [this, enterAll_lookup]; simp
    · cases reads_unique hs hfs
      rfl
    · intro i hi v hv
      exact hmap.contents v (by rw [hct]; exact List.mem_filterMap.2 ⟨i, hi, hv⟩)
    · rw [hct] at hs2
      exact hs2
  · cases h2

/-! ## Rounds -/

theorem newSms_moved {w w1 : World} {k : Nat} {v n : Str} {o : Option Str} {a : JAnswer} {e0 : Emitted}
    {cts : List (Int × Int)} (hk : w.maps[k]? = some e0) (hb : e0.Bears cts)
    (e : (JOp.newSms v n (.emitted k) o none).run w = .ok (a, w1)) :
    ∃ s g kind, w1.heap = w.heap ++ [.sms s] ∧ w1.objs = w.objs ++ [⟨w.heap.length, kind⟩] ∧ s.inner = none ∧
      s.map.gen = some g ∧ ∀ i, g.contents.lookup i = cts.lookup i := by
  simp only [JOp.run, Except.map_ok_iff] at e
  obtain ⟨w1', e, h⟩ := e
  cases h
  simp only [World.newSms, Except.bind_ok_iff] at e
  obtain ⟨⟨hd, w3⟩, h1, ⟨i, w4⟩, h2, h3⟩ := e
  dsimp only at h1 h2 h3
  simp only [World.giveInner] at h2
  obtain ⟨hm, wm, g, hw, hg, hl⟩ := hb
  have s1 := (w.internNew_same (some v)).trans ((w.internNew (some v)).2.intern_same (some n))
  have hmaps : ((w.internNew (some v)).2.intern (some n)).2.maps = w.maps := by
    rfl
  simp only [World.give, hmaps, hk, hm, Bool.false_eq_true, if_false, hw] at h1
  cases h1
  cases h2
  simp only [World.create, Except.map_ok_iff] at h3
  obtain ⟨⟨b, w5⟩, h4, rfl⟩ := h3
  obtain ⟨h, hr, rfl⟩ := World.call_ok h4
  simp only [Op.run] at hr
  cases hr
  cases truthy o with
  | none => exact ⟨_, g, _, by rw [← s1.heap], by rw [← s1.heap, ← s1.objs], rfl, hg, hl⟩
  | some y => exact ⟨_, g, _, by rw [← s1.heap]; rfl, by rw [← s1.heap, ← s1.objs]; rfl, rfl, hg, hl⟩

theorem sms_node_moved {s s' : Sms} {g : Generator} {n : SmNode} (hi : s.inner = none) (hg : s.map.gen = some g)
    (e : s.node = .ok (n, s')) : n.cts = g.contents := by
  simp only [Sms.node, SmHolder.getGen, hg, hi] at e
  cases hf : fromStringWithGenerator s.value g with
  | error z => rw [hf] at e; cases e
  | ok m => rw [hf] at e; cases e; exact fromStringWithGenerator_cts hf

theorem apiNode_sms {h : Heap} {s : Sms} {c m : Bool} {n : SmNode} {h' : Heap}
    (e : apiNode (h ++ [.sms s]) h.length c m = .ok (n, h')) : ∃ s', s.node = .ok (n, s') := by
  unfold apiNode budget at e
  rw [hNode, if_neg (by simp)] at e
  have : (h ++ [Obj.sms s])[h.length]? = some (.sms s) := List.getElem?_concat_length
  rw [this] at e
  dsimp only at e
  split at e
  · cases e
  · rename_i h1; cases e; exact ⟨_, h1⟩

theorem Spec.Plainly.bearing {ops made : List JOp} {w w1 : World} {j k : Nat} {module_ : Bool} {fs : List JVal}
    (P : Plainly ops made w) (hu : Unreplaced (jthings ops) false (.obj j))
    (e : (JOp.sourceAndMap j true module_).run w = .ok (.pair k, w1)) (hfs : Reads w1 k .sources (.list fs)) :
    ∃ o n h', w.objs[j]? = some o ∧ apiNode w.heap o.ptr true module_ = .ok (n, h') ∧ Bearing w1 k fs n.cts := by
  obtain ⟨A, I⟩ := World.run_inv P.proper P.run
  have W := World.run_within ops
  rw [P.run] at W
  obtain ⟨L, hst⟩ := World.run_given P.proper P.few P.names P.simple P.spelt (fun op h => exact_strict (P.exact_ op h)) P.run
  exact World.emit_bearing I L W (World.run_lined P.few P.run) (World.run_given_positive P.few P.names P.spelt P.run) hst
    P.exact_ (made_makes P.spelt) hu.mono e hfs

/-- A round keeps the contents. -/
theorem Bearing.round {ops made : List JOp} {w w1 w2 : World} {k k' : Nat} {module_ : Bool} {m : PlacedMarks}
    {v n : List Char} {o : Option (List Char)} {ss cs ns fs : List JVal} {mp : List Char} {a : JAnswer}
    {cts : List (Int × Int)} {c : JFieldVal}
    (P : Plainly ops made w) (S : Shown w k m ss cs ns mp) (hv : Reads w k .source (.text v))
    (e : (JOp.newSms v n (.emitted k) o none).run w = .ok (a, w1))
    (e1 : (JOp.sourceAndMap (jthings ops).length true module_).run w1 = .ok (.pair k', w2))
    (B : Bearing w k fs cts) (hc : Reads w k .contents c) (hfs : Reads w2 k' .sources (.list fs)) :
    ∃ cts', Bearing w2 k' fs cts' ∧ Reads w2 k' .contents c := by
  obtain ⟨made', Q, hu, hj⟩ := P.given S hv e
  obtain ⟨obj, nd, h', ho, hn, B'⟩ := Q.bearing hu e1 hfs
  obtain ⟨x, T, b1, b2, b3, b4, b5, b6⟩ := B
  obtain ⟨s, g, kind, m1, m2, m3, m4, m5⟩ := newSms_moved b1 b2 e
  have hlen : (jthings ops).length = w.objs.length := by
    obtain ⟨A, I⟩ := World.run_inv P.proper P.run
    exact I.sim.len.symm
  rw [m2, hlen, List.getElem?_concat_length] at ho
  cases ho
  rw [m1] at hn
  obtain ⟨s', hs⟩ := apiNode_sms hn
  have hcts := sms_node_moved m3 m4 hs
  have B'' := B'
  obtain ⟨x', T', c1, c2, c3, c4, c5, c6⟩ := B'
  have ext : w.strs.Ext w2.strs := World.runFrom_ext (ops := [.newSms v n (.emitted k) o none,
    .sourceAndMap (jthings ops).length true module_]) (by simp only [World.runFrom, e, e1, Except.bind])
  have same : T' = T := by
    have : T'.map w2.strs.name = T.map w2.strs.name := by
      rw [c4, ← b4]
      exact (List.map_congr_left fun i hi => (StrTable.Has.mono ext.array (stands_has (b3 i hi).stands)).2).symm
    have inj : ∀ (l l' : List Int), (∀ i ∈ l, Canon w2.strs (fun _ => True) i) →
        (∀ i ∈ l', Canon w2.strs (fun _ => True) i) → l.map w2.strs.name = l'.map w2.strs.name → l = l' := by
      intro l
      induction l with
      | nil => intro l' _ _ h; cases l' with
        | nil => rfl
        | cons b l' => cases h
      | cons b l ih =>
        intro l' h1 h2 h
        cases l' with
        | nil => cases h
        | cons b' l' =>
          simp only [List.map_cons, List.cons.injEq] at h
          rw [canon_inj (h1 b (by simp)) (h2 b' (by simp)) h.1,
            ih l' (fun i hi => h1 i (by simp [hi])) (fun i hi => h2 i (by simp [hi])) h.2]
    exact inj _ _ c3 (fun i hi => (b3 i hi).grow ext) this
  subst same
  refine ⟨_, B'', ?_⟩
  cases reads_unique hc b6
  have : ((T'.filterMap fun s => nd.cts.lookup s).map w2.strs.name) = (T'.filterMap fun s => cts.lookup s).map w.strs.name := by
    rw [show (fun s => nd.cts.lookup s) = fun s => cts.lookup s from funext fun s => by rw [hcts]; exact m5 s]
    refine List.map_congr_left fun i hi => ?_
    obtain ⟨s, hs, e⟩ := List.mem_filterMap.1 hi
    exact (StrTable.Has.mono ext.array (b5 s hs i e)).2
  rw [← this]
  exact c6

theorem Spec.Plainly.again_contents {ops made : List JOp} {w : World} {k : Nat} {m : PlacedMarks} {cs : List JVal}
    {cts : List (Int × Int)} {c : JFieldVal} (P : Plainly ops made w) (hs : ShowsExactly w k m)
    (S : Shown w k m (filesOf m) cs (namesOf m) (encode (segsOf m))) (hf : Sizable m)
    (B : Bearing w k (filesOf m) cts) (hc : Reads w k .contents c) {ops' : List JOp} {k' : Nat}
    (h : Again ops k ops' k') : ∃ made' w' cts', Plainly ops' made' w' ∧ ShowsExactly w' k' m ∧
      (∃ cs', Shown w' k' m (filesOf m) cs' (namesOf m) (encode (segsOf m))) ∧ Bearing w' k' (filesOf m) cts' ∧
      Reads w' k' .contents c := by
  induction h with
  | start => exact ⟨_, _, _, P, hs, ⟨_, S⟩, B, hc⟩
  | more _ r e Q hg hset ih =>
    obtain ⟨made', w', cts', P', ⟨a1, a2, a3, a4⟩, ⟨cs', S'⟩, B', hc'⟩ := ih
    have := r.symm.trans P'.run
    cases this
    exact ⟨_, _, _, Q, ⟨reads_lasts e hg hset a1, reads_lasts e hg hset a2, reads_lasts e hg hset a3,
      reads_lasts e hg hset a4⟩, ⟨_, S'.lasts e hg hset⟩, B'.lasts e hg hset, reads_lasts e hg hset hc'⟩
  | round _ r hv e e1 ih =>
    obtain ⟨made', w', cts', P', -, ⟨cs', S'⟩, B', hc'⟩ := ih
    have := r.symm.trans P'.run
    cases this
    obtain ⟨made'', h1, h2, h3⟩ := P'.round S' hf hv e e1
    obtain ⟨cts'', h4, h5⟩ := B'.round P' S' hv e e1 hc' h2.2.1
    exact ⟨_, _, _, h1, h2, h3, h4, h5⟩

/-- C78 for all properties: rounds from the pair of an object without `ReplaceSource` and empty strings. -/
theorem C78_all_partial (ops ops' made : List JOp) (w w1 w' : World) (j k k' : Nat) (module_ : Bool) (m : PlacedMarks)
    (P : Plainly ops made w) (hu : Unreplaced (jthings ops) false (.obj j))
    (hj : JPlaces (jthings ops) made (.obj j) m) (hf : Sizable m)
    (e : (JOp.sourceAndMap j true module_).run w = .ok (.pair k, w1))
    (h : Again (ops ++ [.sourceAndMap j true module_]) k ops' k') (r : World.run ops' = .ok w') (f : JField) :
    ∃ v, Reads w1 k f v ∧ Reads w' k' f v := by
  obtain ⟨Q, h1, cs, S⟩ := P.emit hu hj hf e
  obtain ⟨o, n, h', -, -, B⟩ := P.bearing hu e h1.2.1
  have B' := B
  obtain ⟨x, T, b1, b2, b3, b4, b5, b6⟩ := B'
  obtain ⟨made', w2, cts', P', h2, -, -, h3⟩ := Q.again_contents h1 S hf B b6 h
  have := r.symm.trans P'.run
  cases this
  by_cases hf : f = .contents
  · subst hf; exact ⟨_, b6, h3⟩
  · exact readSame_of_exactly h1 h2 f hf

/-- C78 for all properties: rounds after the first, from any well-formed pair that attributes its characters. -/
theorem C78_all_settles_partial (ops ops' made : List JOp) (w w1 w2 w' : World) (k k1 k' : Nat) (module_ : Bool)
    (m : PlacedMarks) (v n : List Char) (o : Option (List Char)) (ss cs ns : List JVal) (mp : List Char) (a : JAnswer)
    (P : Plainly ops made w) (hs : ShowsPlaces w k m) (hx : SpeltMap w (.emitted k) (.plain ss cs ns mp))
    (hw : WellMade ss ns mp) (hf : Sizable m) (hv : Reads w k .source (.text v))
    (e : (JOp.newSms v n (.emitted k) o none).run w = .ok (a, w1))
    (e1 : (JOp.sourceAndMap (jthings ops).length true module_).run w1 = .ok (.pair k1, w2))
    (h : Again (ops ++ [.newSms v n (.emitted k) o none, .sourceAndMap (jthings ops).length true module_]) k1 ops' k')
    (r : World.run ops' = .ok w') (f : JField) : ∃ c, Reads w2 k1 f c ∧ Reads w' k' f c := by
  obtain ⟨made1, Q, h1, cs1, S⟩ := P.round ⟨hs, hx, hw⟩ hf hv e e1
  obtain ⟨made0, Q0, hu, -⟩ := P.given ⟨hs, hx, hw⟩ hv e
  obtain ⟨_, _, _, -, -, B⟩ := Q0.bearing hu e1 h1.2.1
  have B' := B
  obtain ⟨x, T, b1, b2, b3, b4, b5, b6⟩ := B'
  obtain ⟨made', w3, cts', P', h2, -, -, h3⟩ := Q.again_contents h1 S hf B b6 h
  have := r.symm.trans P'.run
  cases this
  by_cases hf : f = .contents
  · subst hf; exact ⟨_, b6, h3⟩
  · exact readSame_of_exactly h1 h2 f hf

/-! Non-trivial case: the program of C78, whose pair has contents for one file of three. -/

theorem c78_all (f : JField) : ∃ w w1 w', World.run c66Program = .ok w ∧
    (JOp.sourceAndMap 6 true true).run w = .ok (.pair 2, w1) ∧ World.run c78Program = .ok w' ∧
    ∃ v, Reads w1 2 f v ∧ Reads w' 4 f v := by
  obtain ⟨w, w1, w', r, e, r', -⟩ := c78_same
  exact ⟨w, w1, w', r, e, r', C78_all_partial _ _ _ w w1 w' 6 2 4 true c66Last (c78_plainly r) c66_unreplaced
    c66_last c78_sizable e c78_again r' f⟩

example : ((World.run c78Program).toOption.map fun w => [2, 3, 4].map fun k =>
    ((JOp.get k .contents).run w).toOption.map Prod.fst) =
    some [none, none, some (.field (.list [some "a;b {\n  c }\n".toList]))] := by decide +kernel

example : ((World.run (c66Program ++ [.sourceAndMap 6 true true])).toOption.map fun w =>
    ((JOp.get 2 .contents).run w).toOption.map Prod.fst) =
    some (some (.field (.list [some "a;b {\n  c }\n".toList]))) := by decide +kernel

end WS
