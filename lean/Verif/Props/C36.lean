import Verif.Proofs.NodeText
import Verif.Proofs.Api
/-! # C36 Concatenation keeps every item's column-level attribution -/

namespace WS
open Spec

/-- The node of `src` has the characters `m` with their attributions; a plain string is
unattributed. -/
def Spec.NodeAs (h : Heap) (module_ : Bool) : Src → Marked → Prop
  | .str s, m => m = uniform none s
  | .ref j, m => ∃ n h', apiNode h j true module_ = .ok (n, h') ∧ n.marks = m

/-- The same of a list, in order. -/
def Spec.NodesAs (h : Heap) (module_ : Bool) : List Src → List Marked → Prop
  | [], [] => True
  | c :: cs, m :: ms => NodeAs h module_ c m ∧ NodesAs h module_ cs ms
  | _, _ => False

theorem nodeAs_iff {A : AHeap} (hst : A.Stable) {h : Heap} (H : Abs A h) (mod : Bool) (src : Src)
    (m : Marked) : NodeAs h mod src m ↔
      ∃ t, Unfolds A src t ∧ ∃ n, Tree.itemNode true mod t = .ok n ∧ n.marks = m := by
  cases src with
  | str s =>
    have hm : (SmNode.str s).marks = uniform none s := by
      simp [SmNode.marks, SmNode.leaves, marked, uniform]
    constructor
    · rintro rfl
      exact ⟨_, .str s, _, rfl, hm⟩
    · rintro ⟨t, hu, n, hn, rfl⟩
      cases hu
      cases hn
      exact hm
  | ref j =>
    constructor
    · rintro ⟨n, h', e, rfl⟩
      obtain ⟨t, hu, hn⟩ := (api_node_iff hst H j true mod n).1 ⟨h', e⟩
      refine ⟨t, hu, n, ?_, rfl⟩
      cases hu <;> exact hn
    · rintro ⟨t, hu, n, hn, rfl⟩
      have hn' : t.node true mod = .ok n := by cases hu <;> exact hn
      obtain ⟨h', e⟩ := (api_node_iff hst H j true mod n).2 ⟨t, hu, hn'⟩
      exact ⟨n, h', e, rfl⟩

theorem nodesAs_iff {A : AHeap} (hst : A.Stable) {h : Heap} (H : Abs A h) (mod : Bool) :
    ∀ (cs : List Src) (ms : List Marked), NodesAs h mod cs ms ↔
      ∃ ts : List Tree, ts.length = cs.length ∧
        (∀ (k : Nat) (c : Src) (t : Tree), cs[k]? = some c → ts[k]? = some t → Unfolds A c t) ∧
        ∃ ns, allM (Tree.itemNode true mod) ts = .ok ns ∧ ns.map SmNode.marks = ms
  | [], [] => by
    simp only [NodesAs, true_iff]
    exact ⟨[], rfl, by simp, [], rfl, rfl⟩
  | [], m :: ms => by
    simp only [NodesAs, false_iff]
    rintro ⟨ts, hl, _, ns, hns, e⟩
    have : ts = [] := by simpa using hl
    subst this
    cases hns
    cases e
  | c :: cs, [] => by
    simp only [NodesAs, false_iff]
    rintro ⟨ts, hl, _, ns, hns, e⟩
    cases ts with
    | nil => simp at hl
    | cons t ts =>
      rw [allM] at hns
      have : ns = [] := by simpa using e
      subst this
      cases ht : Tree.itemNode true mod t with
      | error x => rw [ht] at hns; cases hns
      | ok n =>
        rw [ht] at hns
        cases hr : allM (Tree.itemNode true mod) ts with
        | error x => rw [hr] at hns; cases hns
        | ok ns => rw [hr] at hns; cases hns
  | c :: cs, m :: ms => by
    simp only [NodesAs, nodeAs_iff hst H, nodesAs_iff hst H mod cs ms]
    constructor
    · rintro ⟨⟨t, hu, n, hn, rfl⟩, ts, hl, hk, ns, hns, rfl⟩
      refine ⟨t :: ts, by simp [hl], ?_, n :: ns, by simp [allM, hn, hns, Except.bind, Except.map], rfl⟩
      intro k c' t' hc ht
      cases k with
      | zero => simp at hc ht; subst hc ht; exact hu
      | succ k => exact hk k c' t' (by simpa using hc) (by simpa using ht)
    · rintro ⟨ts, hl, hk, ns, hns, e⟩
      cases ts with
      | nil => simp at hl
      | cons t ts =>
        rw [allM] at hns
        cases ht : Tree.itemNode true mod t with
        | error x => rw [ht] at hns; cases hns
        | ok n =>
          rw [ht] at hns
          cases hr : allM (Tree.itemNode true mod) ts with
          | error x => rw [hr] at hns; cases hns
          | ok ns' =>
            rw [hr] at hns; cases hns
            simp only [List.map_cons, List.cons.injEq] at e
            exact ⟨⟨t, hk 0 c t rfl rfl, n, ht, e.1⟩, ts, by simpa using hl,
              fun k c t hc ht => hk (k + 1) c t hc ht, ns', hr, e.2⟩

/-- The characters of a concatenation node are those of its children. -/
theorem mkVec_marks (ns : List SmNode) :
    (SmNode.mkVec none none none ns).marks = (ns.map SmNode.marks).flatten := by
  unfold SmNode.marks
  rw [mkVec_leaves]
  simp [marked, List.flatMap, List.map_flatten, Function.comp_def, List.flatten_flatten]

/-- C36. The characters of the node of a `ConcatSource`, each with its attribution, are those of the
nodes of its items, one item after the other; plain string items are unattributed. The items are
determined by the `add` calls (`Spec.items`). -/
theorem C36_concat_marks (ops : List Op) (h : Heap) (i : Nat) (module_ : Bool) (m : Marked)
    (hrun : run ops = .ok h) (hst : ∀ op ∈ ops, Spec.Op.StableMap op)
    (hi : (created ops)[i]? = some .newConcat) :
    NodeAs h module_ (.ref i) m ↔ ∃ ms, NodesAs h module_ (items ops i) ms ∧ m = ms.flatten := by
  obtain ⟨A, hA, H⟩ := run_abs hrun
  have S := stable_of_ops hA hst
  have D := object_of_created hA hi
  simp only [objOf] at D
  rw [nodeAs_iff S H]
  constructor
  · rintro ⟨t, hu, n, hn, rfl⟩
    cases hu with
    | @concat _ cs ts e hl hk =>
      rw [D] at e; cases e
      change Tree.node true module_ (.concat ts) = .ok n at hn
      rw [Tree.node, Tree.nodes_eq] at hn
      cases hns : allM (Tree.itemNode true module_) ts with
      | error x => rw [hns] at hn; cases hn
      | ok ns =>
        rw [hns] at hn; cases hn
        exact ⟨_, (nodesAs_iff S H module_ _ _).2 ⟨ts, hl, hk, ns, hns, rfl⟩, mkVec_marks ns⟩
    | raw e => rw [D] at e; cases e
    | original e => rw [D] at e; cases e
    | l2l e => rw [D] at e; cases e
    | sms e => rw [D] at e; cases e
    | prefixed e => rw [D] at e; cases e
    | replace e => rw [D] at e; cases e
  · rintro ⟨ms, hms, rfl⟩
    obtain ⟨ts, hl, hk, ns, hns, rfl⟩ := (nodesAs_iff S H module_ _ _).1 hms
    refine ⟨_, .concat D hl hk, SmNode.mkVec none none none ns, ?_, mkVec_marks ns⟩
    show Tree.node true module_ (.concat ts) = _
    rw [Tree.node, Tree.nodes_eq, hns]
    rfl

/-- Text before the `k`-th item. -/
def Spec.textBefore (ns : List SmNode) (k : Nat) : List Char := ((ns.take k).map SmNode.text).flatten

theorem marks_fst (n : SmNode) : n.marks.map Prod.fst = n.text := SmNode.marks_text n

/-- C36 in terms of emitted maps. Look any character of item `k` up in the map of the concatenation:
the answer is the one the item's own map gives for it. -/
theorem C36_concat_map (ns : List SmNode) (hok : ∀ n ∈ ns, ∀ l ∈ n.leaves, LeafOk l)
    (file file' : Option Int) (k : Nat) (n : SmNode) (hk : ns[k]? = some n) :
    ∃ r ps r' ps',
      (SmNode.mkVec none none none ns).toStringWithSourceMap file none = .ok r ∧
      mapPoints r.map = some ps ∧
      n.toStringWithSourceMap file' none = .ok r' ∧ mapPoints r'.map = some ps' ∧
      ∀ j, j < n.text.length →
        lookup ps (posAfter (textBefore ns k ++ n.text.take j)).1
          (posAfter (textBefore ns k ++ n.text.take j)).2 =
        lookup ps' (posAfter (n.text.take j)).1 (posAfter (n.text.take j)).2 := by
  have hmem : n ∈ ns := List.mem_of_getElem? hk
  obtain ⟨r, ps, h1, h2, h3, _, _⟩ := C09_attribution_partial (SmNode.mkVec none none none ns) file none (by
    rw [mkVec_leaves]
    intro l hl
    obtain ⟨x, hx, hlx⟩ := List.mem_flatMap.1 hl
    exact hok x hx l hlx)
  obtain ⟨r', ps', h1', h2', h3', _, _⟩ := C09_attribution_partial n file' none (hok n hmem)
  refine ⟨r, ps, r', ps', h1, h2, h1', h2', ?_⟩
  intro j hj
  have hlen : n.marks.length = n.text.length := by rw [← marks_fst, List.length_map]
  obtain ⟨c, o, hco⟩ : ∃ c o, n.marks[j]? = some (c, o) :=
    ⟨n.marks[j].1, n.marks[j].2, List.getElem?_eq_getElem (by omega)⟩
  have e' := h3' j c o hco
  rw [List.map_take, marks_fst] at e'
  rw [e']
  -- the same character in the concatenation
  have hsplit : (SmNode.mkVec none none none ns).marks =
      ((ns.take k).map SmNode.marks).flatten ++ (n.marks ++ ((ns.drop (k + 1)).map SmNode.marks).flatten) := by
    rw [mkVec_marks]
    have : ns = ns.take k ++ n :: ns.drop (k + 1) := by
      obtain ⟨hlt, he⟩ := List.getElem?_eq_some_iff.1 hk
      rw [← he, List.getElem_cons_drop, List.take_append_drop]
    conv => lhs; rw [this]
    simp
  have hb : (((ns.take k).map SmNode.marks).flatten).map Prod.fst = textBefore ns k := by
    unfold textBefore
    rw [List.map_flatten, List.map_map]
    congr 2
    funext x
    exact marks_fst x
  have e := h3 ((((ns.take k).map SmNode.marks).flatten).length + j) c o (by
    rw [hsplit, List.getElem?_append_right (by omega), Nat.add_sub_cancel_left,
      List.getElem?_append_left (by omega)]
    exact hco)
  have htk : ((SmNode.mkVec none none none ns).marks.take
      ((((ns.take k).map SmNode.marks).flatten).length + j)).map Prod.fst =
      textBefore ns k ++ n.text.take j := by
    rw [hsplit, List.take_length_add_append, List.map_append, hb, List.take_append_of_le_length (by omega),
      List.map_take, marks_fst]
  rw [htk] at e
  exact e

/-! Non-trivial case: an attributed item after an unattributed string, both on one line. -/

/-- A string, then an `OriginalSource`. -/
def C36_history : List Op :=
  [.newOriginal "a\nb".toList 5 6, .newConcat, .add 1 (.str "x;".toList), .add 1 (.ref 0)]

example : (run C36_history).toOption.bind (fun h => (apiNode h 1 true true).toOption.map
      fun r => r.1.marks) =
    some [('x', none), (';', none), ('a', some ⟨5, 1, 0, none⟩), ('\n', some ⟨5, 1, 0, none⟩),
      ('b', some ⟨5, 2, 0, none⟩)] := by decide +kernel
example : ∀ op ∈ C36_history, Spec.Op.StableMap op := by
  intro op hop
  simp only [C36_history, List.mem_cons, List.not_mem_nil, or_false] at hop
  rcases hop with rfl | rfl | rfl | rfl <;> trivial
example : ∀ n ∈ [SmNode.str "x;".toList, originalNode true "a\nb".toList 5 6],
    ∀ l ∈ n.leaves, LeafOk l := by decide +kernel

end WS
