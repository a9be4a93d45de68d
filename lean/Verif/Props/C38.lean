import Verif.Proofs.ReplaceAttr
import Verif.Props.C37
import Verif.Props.C04
/-! # C38 Editing keeps the attribution of the characters it keeps -/

namespace WS
open Spec

theorem spliceM_snoc (s : Marked) (k : Nat) (es : List MarkedEdit) (e : MarkedEdit)
    (h1 : ∀ d ∈ es, d.start ≤ d.stop) (h2 : ∀ d ∈ es, d.stop ≤ e.start) :
    spliceM s k (es ++ [e]) =
      spliceM (s.take e.start.toNat) k es ++ e.text ++ s.drop e.stop.toNat := by
  induction es generalizing k with
  | nil => simp [spliceM]
  | cons d es ih =>
    have hd1 := h1 d (by simp)
    have hd2 := h2 d (by simp)
    have : min d.start.toNat e.start.toNat = d.start.toNat := by omega
    simp only [List.cons_append, spliceM]
    rw [ih _ (fun d hd => h1 d (by simp [hd])) (fun d hd => h2 d (by simp [hd]))]
    simp [List.take_take, this]

theorem applyRightM_reverse (es : List MarkedEdit) (h1 : ∀ e ∈ es, e.start ≤ e.stop)
    (h2 : es.Pairwise (fun a b => a.stop ≤ b.start)) (s : Marked) :
    applyRightM s es.reverse = spliceM s 0 es := by
  induction es using snoc_induction generalizing s with
  | nil => simp [applyRightM, spliceM]
  | snoc es e ih =>
    rw [List.pairwise_append] at h2
    have he := h1 e (by simp)
    have : min e.start.toNat e.stop.toNat = e.start.toNat := by omega
    rw [spliceM_snoc s 0 es e (fun d hd => h1 d (by simp [hd])) (fun d hd => h2.2.2 d hd e (by simp))]
    simp only [List.reverse_append, List.reverse_cons, List.reverse_nil, List.nil_append,
      List.cons_append, applyRightM, List.take_take, this]
    rw [ih (fun d hd => h1 d (by simp [hd])) h2.1]

/-- An edit whose text comes from `o`. -/
def Spec.Edit.from (e : Edit) (o : Option Origin) : MarkedEdit := ⟨e.start, e.stop, uniform o e.text⟩

theorem markedEdits_eq (rs : List Repl) (os : List (Option Origin)) :
    markedEdits rs os = List.zipWith Edit.from (rs.map Repl.edit) os := by
  rw [List.zipWith_map_left]; rfl

theorem originEdits_eq (m : Marked) (rs : List Repl) :
    originEdits m rs = (rs.map Repl.edit).map fun e => e.from (editOrigin m e.start e.stop) := by
  rw [List.map_map]; rfl

theorem sortedCalls_edits {rs es : List Request} (hw : ∀ r ∈ rs, r.Whole) (h : Arranged rs es) :
    (sortedCalls (rs.map Request.call)).map Repl.edit = (es.map Request.edit).reverse := by
  rw [map_edit, sortedCalls_arranged hw h, List.map_reverse,
    call_edit_whole (fun r hr => hw r (h.perm.mem_iff.1 hr))]

theorem arranged_edits {rs es : List Request} (hw : ∀ r ∈ rs, r.Whole) (h : Arranged rs es) :
    (∀ e ∈ es.map Request.edit, e.start ≤ e.stop) ∧
    (es.map Request.edit).Pairwise (fun a b => a.stop ≤ b.start) := by
  constructor
  · intro e he'
    obtain ⟨r, hr, rfl⟩ := List.mem_map.1 he'
    exact (hw r (h.perm.mem_iff.1 hr)).2.2
  · rw [List.pairwise_map]; exact h.order

theorem zipWith_from_mem {es : List Edit} : ∀ {os : List (Option Origin)},
    ∀ e ∈ List.zipWith Edit.from es os, ∃ d ∈ es, e.start = d.start ∧ e.stop = d.stop := by
  induction es with
  | nil => intro os e he; simp at he
  | cons d es ih =>
    intro os e he
    cases os with
    | nil => simp at he
    | cons o os =>
      rw [List.zipWith_cons_cons, List.mem_cons] at he
      rcases he with rfl | he
      · exact ⟨d, by simp, rfl, rfl⟩
      · obtain ⟨d', h1, h2⟩ := ih e he
        exact ⟨d', by simp [h1], h2⟩

theorem zipWith_from_pairwise {es : List Edit} : ∀ {os : List (Option Origin)},
    es.Pairwise (fun a b => a.stop ≤ b.start) →
    (List.zipWith Edit.from es os).Pairwise (fun a b => a.stop ≤ b.start) := by
  induction es with
  | nil => intro os _; simp
  | cons d es ih =>
    intro os h
    cases os with
    | nil => simp
    | cons o os =>
      rw [List.zipWith_cons_cons, List.pairwise_cons]
      rw [List.pairwise_cons] at h
      refine ⟨?_, ih h.2⟩
      intro e he
      obtain ⟨d', h1, h2, _⟩ := zipWith_from_mem e he
      rw [h2]
      exact h.1 d' h1

/-- C38, what is kept. For disjoint requests the characters of the node of a `ReplaceSource` are those
of the inner node with every named range taken out and its text put in; each text comes from one
place. -/
theorem C38_kept (inner : SmNode) (hn : inner.IsNode) (rs es : List Request)
    (hw : ∀ r ∈ rs, r.Whole) (he : Arranged rs es) :
    ∃ n os, replaceNode inner (sortedCalls (rs.map Request.call)) = .ok n ∧ os.length = es.length ∧
      n.marks = spliceM inner.marks 0 (List.zipWith Edit.from (es.map Request.edit) os) := by
  obtain ⟨n, e, _, hl⟩ := replaceNode_leaves hn (sortedCalls (rs.map Request.call))
  obtain ⟨os, hlen, hm⟩ := leafLoop_marks (sortedCalls (rs.map Request.call)) inner.leaves
  have hlen' : os.length = es.length := by
    have := congrArg List.length (sortedCalls_edits hw he)
    simp only [List.length_map, List.length_reverse] at this
    omega
  refine ⟨n, os.reverse, e, by simp [hlen'], ?_⟩
  rw [SmNode.marks, hl, hm, markedEdits_eq, sortedCalls_edits hw he]
  have hz : List.zipWith Edit.from (es.map Request.edit).reverse os =
      (List.zipWith Edit.from (es.map Request.edit) os.reverse).reverse := by
    rw [List.reverse_zipWith (by simp [hlen']), List.reverse_reverse]
  rw [hz, applyRightM_reverse]
  · rfl
  · intro d hd
    obtain ⟨d', h1, h2, h3⟩ := zipWith_from_mem d hd
    rw [h2, h3]
    exact (arranged_edits hw he).1 d' h1
  · exact zipWith_from_pairwise (arranged_edits hw he).2

/-- C38, where the texts come from, for inner nodes without empty strings and requests that do not
start where an attributed character follows one of another origin (`CleanStart`): the text of a request
comes from where the first character it takes out comes from; if it takes none out, from where the
character before it comes from. Missing for the full claim: see `C38_not_general`. -/
theorem C38_origins_partial (inner : SmNode) (hn : inner.IsNode) (hf : FullLeaves inner.leaves)
    (rs es : List Request) (hw : ∀ r ∈ rs, r.Whole) (he : Arranged rs es)
    (hc : ∀ r ∈ rs, CleanStart inner.marks r.start r.stop) :
    ∃ n, replaceNode inner (sortedCalls (rs.map Request.call)) = .ok n ∧
      n.marks = spliceM inner.marks 0
        (es.map fun r => r.edit.from (editOrigin inner.marks r.start r.stop)) := by
  obtain ⟨n, e, _, hl⟩ := replaceNode_leaves hn (sortedCalls (rs.map Request.call))
  refine ⟨n, e, ?_⟩
  have hE := sortedCalls_edits hw he
  have hmem : ∀ r ∈ sortedCalls (rs.map Request.call), ∃ q ∈ es, r.start = q.start ∧ r.stop = q.stop := by
    intro r hr
    have : r.edit ∈ (es.map Request.edit).reverse := by rw [← hE]; exact List.mem_map_of_mem hr
    obtain ⟨q, hq, e⟩ := List.mem_map.1 (List.mem_reverse.1 this)
    refine ⟨q, hq, ?_, ?_⟩
    · exact (congrArg Edit.start e).symm
    · exact (congrArg Edit.stop e).symm
  have hpw : (sortedCalls (rs.map Request.call)).Pairwise (fun a b => b.stop ≤ a.start) := by
    have := (List.pairwise_reverse.2 (arranged_edits hw he).2)
    rw [← hE, List.pairwise_map] at this
    exact this
  have hx := leafLoop_exact (m := inner.marks) (sortedCalls (rs.map Request.call)) inner.leaves
    inner.marks.length ?_ ?_ hpw (fun r _ => .inr (Nat.le_refl _))
  · rw [SmNode.marks, hl, hx, originEdits_eq, hE, List.map_reverse, applyRightM_reverse]
    · rw [List.map_map]; rfl
    · intro d hd
      obtain ⟨d', h1, rfl⟩ := List.mem_map.1 hd
      exact (arranged_edits hw he).1 d' h1
    · rw [List.pairwise_map]
      exact (arranged_edits hw he).2
  · refine ⟨by simp [SmNode.marks], .inl ⟨hf, ?_⟩⟩
    intro h0
    simp [SmNode.marks, h0, marked]
  · intro r hr
    obtain ⟨q, hq, h1, h2⟩ := hmem r hr
    rw [h1, h2]
    have hq' := he.perm.mem_iff.1 hq
    exact ⟨(hw q hq').2.2, hc q hq'⟩

/-- The node of a `ReplaceSource` in terms of that of the wrapped object. -/
theorem replace_node_iff {ops : List Op} {h : Heap} {i j : Nat} {module_ : Bool}
    (hrun : run ops = .ok h) (hst : ∀ op ∈ ops, Spec.Op.StableMap op)
    (hi : (created ops)[i]? = some (.newReplace (.ref j))) (n : SmNode) :
    (∃ h', apiNode h i true module_ = .ok (n, h')) ↔
      ∃ n' h', apiNode h j true module_ = .ok (n', h') ∧ n'.IsNode ∧
        replaceNode n' (sortedCalls ((requests ops i).map Request.call)) = .ok n := by
  obtain ⟨A, hA, H⟩ := run_abs hrun
  have S := stable_of_ops hA hst
  have D := object_of_created hA hi
  simp only [objOf] at D
  rw [api_node_iff S H]
  constructor
  · rintro ⟨t, hu, hn⟩
    cases hu with
    | @replace _ c cs t e hc =>
      rw [D] at e; cases e
      rw [Tree.node] at hn
      cases hm : t.node true module_ with
      | error x => rw [hm] at hn; cases hn
      | ok n' =>
        rw [hm] at hn
        obtain ⟨h', e⟩ := (api_node_iff S H j true module_ n').2 ⟨t, hc, hm⟩
        exact ⟨n', h', e, Tree.node_isNode _ _ t n' hm, hn⟩
    | raw e => rw [D] at e; cases e
    | original e => rw [D] at e; cases e
    | l2l e => rw [D] at e; cases e
    | sms e => rw [D] at e; cases e
    | concat e => rw [D] at e; cases e
    | prefixed e => rw [D] at e; cases e
  · rintro ⟨n', h', e, _, hr⟩
    obtain ⟨t, hc, hm⟩ := (api_node_iff S H j true module_ n').1 ⟨h', e⟩
    exact ⟨_, .replace D hc, by rw [Tree.node, hm]; exact hr⟩

/-- C38 for objects: after any history in which the requests made to a `ReplaceSource` name disjoint
ranges, its node has the characters of the node of the wrapped object, with their attributions, outside
the ranges, and each text, coming from one place, instead of its range. -/
theorem C38_objects (ops : List Op) (h : Heap) (i j : Nat) (module_ : Bool) (es : List Request)
    (m : Marked) (hrun : run ops = .ok h) (hst : ∀ op ∈ ops, Spec.Op.StableMap op)
    (hi : (created ops)[i]? = some (.newReplace (.ref j)))
    (hw : ∀ r ∈ requests ops i, r.Whole) (he : Arranged (requests ops i) es)
    (hm : NodeAs h module_ (.ref i) m) :
    ∃ m' os, NodeAs h module_ (.ref j) m' ∧ os.length = es.length ∧
      m = spliceM m' 0 (List.zipWith Edit.from (es.map Request.edit) os) := by
  obtain ⟨n, h', e, rfl⟩ := hm
  obtain ⟨n', h1, e', hn', hr⟩ := (replace_node_iff hrun hst hi n).1 ⟨h', e⟩
  obtain ⟨n2, os, k1, k2, k3⟩ := C38_kept n' hn' _ es hw he
  rw [hr] at k1; cases k1
  exact ⟨_, os, ⟨n', h1, e', rfl⟩, k2, k3⟩

/-- C38 for objects, with the places the texts come from. Missing for the full claim: see
`C38_not_general`; also the condition that no `ReplaceSource` and no empty string item is involved in
the wrapped object. -/
theorem C38_objects_origins_partial (ops : List Op) (h : Heap) (i j : Nat) (module_ : Bool)
    (es : List Request) (m m' : Marked) (hrun : run ops = .ok h)
    (hst : ∀ op ∈ ops, Spec.Op.StableMap op)
    (hi : (created ops)[i]? = some (.newReplace (.ref j)))
    (hw : ∀ r ∈ requests ops i, r.Whole) (he : Arranged (requests ops i) es)
    (hne : ∀ k, Contains h k (.ref j) → NoEmptyChunk ops k)
    (hm' : NodeAs h module_ (.ref j) m')
    (hc : ∀ r ∈ requests ops i, CleanStart m' r.start r.stop) :
    NodeAs h module_ (.ref i) m ↔
      m = spliceM m' 0 (es.map fun r => r.edit.from (editOrigin m' r.start r.stop)) := by
  obtain ⟨A, hA, H⟩ := run_abs hrun
  obtain ⟨n', h1, e', rfl⟩ := hm'
  obtain ⟨t, hu, ht⟩ := (api_node_iff (stable_of_ops hA hst) H j true module_ n').1 ⟨h1, e'⟩
  have hfull := Seen.full hA H true module_ hu.seen hne n' ht
  obtain ⟨n2, k1, k2⟩ := C38_origins_partial n' hfull.2 hfull.1 _ es hw he hc
  obtain ⟨h2, e2⟩ := (replace_node_iff hrun hst hi n2).2 ⟨n', h1, e', hfull.2, k1⟩
  constructor
  · rintro ⟨n, h', e, rfl⟩
    rw [e2] at e; cases e
    exact k2
  · rintro rfl
    exact ⟨n2, h2, e2, k2⟩

/-- The characters of the node of object `i` after a history. -/
def marksAfter (ops : List Op) (i : Nat) : Option Marked :=
  (run ops).toOption.bind fun h => (apiNode h i true true).toOption.map fun r => r.1.marks

/-- C38 fails in general: where an item of source 5 is followed by one of source 3, replacing the first
character of the second item attributes the text to source 5; with the numbers the other way round (the
strings were interned in the other order) it is attributed to the second item, as claimed. -/
theorem C38_not_general :
    marksAfter [.newOriginal "a".toList 5 6, .newOriginal "b".toList 3 4, .newConcat, .add 2 (.ref 0),
      .add 2 (.ref 1), .newReplace (.ref 2), .replace 3 1 1 "X".toList 0 0] 3 =
        some [('a', some ⟨5, 1, 0, none⟩), ('X', some ⟨5, 1, 0, none⟩)] ∧
    marksAfter [.newOriginal "a".toList 3 6, .newOriginal "b".toList 5 4, .newConcat, .add 2 (.ref 0),
      .add 2 (.ref 1), .newReplace (.ref 2), .replace 3 1 1 "X".toList 0 0] 3 =
        some [('a', some ⟨3, 1, 0, none⟩), ('X', some ⟨5, 1, 0, none⟩)] := by
  decide +kernel

/-! Non-trivial case: a replacement, an insertion and a deletion in an `OriginalSource`. -/

/-- An edited `OriginalSource` after an unattributed string. -/
def C38_history : List Op :=
  [.newOriginal "ab;cd\n".toList 5 6, .newConcat, .add 1 (.str "x".toList), .add 1 (.ref 0),
   .newReplace (.ref 1), .replace 2 2 2 "".toList 0 0, .replace 2 1 1 "Y".toList 0 0,
   .insert 2 6 "Z".toList 0]

/-- Its requests from left to right. -/
def C38_arranged : List Request :=
  [⟨1, 0, 2, 0, "Y".toList⟩, ⟨2, 0, 3, 0, []⟩, ⟨6, 0, 6, 0, "Z".toList⟩]

/-- The characters of the wrapped concatenation. -/
def C38_inner : Marked := uniform none "x".toList ++ uniform (some ⟨5, 1, 0, none⟩) "ab;".toList ++
  uniform (some ⟨5, 1, 3, none⟩) "cd\n".toList

example : marksAfter C38_history 1 = some C38_inner := by decide +kernel
example : marksAfter C38_history 2 = some (uniform none "x".toList ++
    uniform (some ⟨5, 1, 0, none⟩) "Y;".toList ++ uniform (some ⟨5, 1, 3, none⟩) "cdZ\n".toList) := by
  decide +kernel
example : spliceM C38_inner 0 (C38_arranged.map fun r => r.edit.from (editOrigin C38_inner r.start r.stop))
    = (uniform none "x".toList ++ uniform (some ⟨5, 1, 0, none⟩) "Y;".toList ++
      uniform (some ⟨5, 1, 3, none⟩) "cdZ\n".toList) := by decide +kernel
example : (∀ r ∈ requests C38_history 2, r.ordS = 0 ∧ r.ordE = 0 ∧ r.start ≤ r.stop) ∧
    (∀ r ∈ requests C38_history 2, CleanStart C38_inner r.start r.stop) ∧
    C38_arranged.Perm (requests C38_history 2) ∧
    C38_arranged.Pairwise (fun a b => a.stop ≤ b.start) := by decide +kernel

end WS
