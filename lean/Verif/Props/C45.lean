import Verif.Props.C44
import Verif.Props.C38
import Verif.Proofs.Overlap
/-! # C45 Line-level replacing keeps the line of every character that stays -/

namespace WS
open Spec

/-- Apply edits, whose texts are attributed, to an attributed text (compare `Spec.splice`). -/
def Spec.spliceL {β : Type} (m : List (Char × β)) : Nat → List (Edit × List (Char × β)) → List (Char × β)
  | k, [] => m.drop k
  | k, (e, t) :: es => (m.take e.start.toNat).drop k ++ t ++ spliceL m e.stop.toNat es

/-- The edits with an attribution of their texts. -/
def Spec.Attributed {β : Type} (es : List Edit) (ets : List (Edit × List (Char × β))) : Prop :=
  ets.map Prod.fst = es ∧ ∀ p ∈ ets, p.2.map Prod.fst = p.1.text

theorem agrees_splice (m : LineMarked) : ∀ (es : List Edit) (k : Nat) (r : LineMarked),
    Agrees (spliceG blankMark (sketch m) k es) r → ∃ ets, Attributed es ets ∧ r = spliceL m k ets
  | [], k, r, h => by
    refine ⟨[], ⟨rfl, by intro p hp; cases hp⟩, ?_⟩
    apply agrees_sketch
    rw [spliceG] at h
    rw [sketch, spliceL, List.map_drop]
    exact h
  | e :: es, k, r, h => by
    rw [spliceG] at h
    obtain ⟨a, b, rfl, h1, h2⟩ := agrees_append_left h
    obtain ⟨c, t, rfl, h3, h4⟩ := agrees_append_left h1
    obtain ⟨ets, ⟨h5, h6⟩, rfl⟩ := agrees_splice m es _ b h2
    refine ⟨(e, t) :: ets, ⟨by rw [List.map_cons, h5], ?_⟩, ?_⟩
    · intro p hp
      rcases List.mem_cons.1 hp with rfl | hp
      · show t.map Prod.fst = e.text
        rw [h4.fst]
        simp [blankMark, Function.comp_def]
      · exact h6 p hp
    · have : c = (m.take e.start.toNat).drop k := by
        apply agrees_sketch
        rw [sketch, List.map_drop, List.map_take]
        exact h3
      rw [spliceL, this]

theorem replaced_kept (m : Slm) (sorted : List Repl) (hm : ∀ n ∈ m, n.Merged)
    (hr : NoRepeat (piecesMarks (m.map LNode.piece))) (ht : ∀ r ∈ sorted, '\n' ∉ r.text)
    (ho : LeftToRight (sorted.map Repl.edit).reverse) :
    ∃ ets, Attributed (sorted.map Repl.edit).reverse ets ∧
      piecesMarks ((replaceListMap m sorted).map LNode.piece) = spliceL (piecesMarks (m.map LNode.piece)) 0 ets := by
  rw [← List.map_reverse] at ho ⊢
  obtain ⟨_, qs, h1, _, h3, h4⟩ := mapGenerated_drawn rm_lifts ⟨0, sorted.reverse, 0⟩
    (fun r hr => ht r (List.mem_reverse.1 hr)) hm hr
  rw [runSk_eq] at h3 h4
  have h0 : RmInvG blankMark (sorted.reverse.map Repl.edit) [] [] ⟨0, sorted.reverse, 0⟩ :=
    ⟨by simp, ho, fun _ => rfl, fun _ _ => by simp, fun v => by simp⟩
  have h5 := runSk_rm qs h0
  rw [List.nil_append, List.nil_append, h1, ← h3] at h5
  have h6 := h5.same []
  rw [List.append_nil, spliceG_behind _ _ _ _ (by omega) (fun r hr => by have := h5.ahead r hr; omega) h5.order] at h6
  apply agrees_splice
  rw [h6, replaceListMap]
  dsimp only
  have hflat : ∀ rs : List Repl, (rs.map fun r => r.text.map blankMark).flatten =
      (rs.map Repl.text).flatten.map blankMark := by
    intro rs
    rw [List.map_flatten, List.map_map]
    rfl
  rw [hflat]
  split
  · rename_i he
    rw [List.isEmpty_iff.1 he, List.map_nil, List.append_nil]
    exact h4
  · rw [slmAddStr_marks]
    refine h4.append (agrees_none ?_ ?_)
    · simp [blankMark, Function.comp_def]
    · intro k hk
      obtain ⟨c, _, rfl⟩ := List.mem_map.1 hk
      rfl

/-- C45 for list maps: the edited map says of every character that stays what the map said. Requests may
overlap; each takes what the ones before it left over. -/
theorem C45_kept_partial (m : Slm) (sorted : List Repl) (hm : ∀ n ∈ m, n.Merged)
    (hr : NoRepeat (piecesMarks (m.map LNode.piece))) (ht : ∀ r ∈ sorted, '\n' ∉ r.text) :
    ∃ ets, Attributed (clipped 0 (sorted.map Repl.edit).reverse) ets ∧
      piecesMarks ((replaceListMap m sorted).map LNode.piece) = spliceL (piecesMarks (m.map LNode.piece)) 0 ets := by
  rw [← replaceListMap_clipped m sorted, ← clipRepls_reverse]
  refine replaced_kept m _ hm hr ?_ (by rw [clipRepls_reverse]; exact clipped_leftToRight _ _)
  intro r hr
  have := List.mem_map_of_mem (f := Repl.text) (List.mem_reverse.1 hr)
  rw [clipRepls_texts] at this
  obtain ⟨q, h1, h2⟩ := List.mem_map.1 this
  rw [← h2]
  exact ht q (List.mem_reverse.1 h1)

/-! ## Objects -/

/-- The list map of a `ReplaceSource` in terms of that of the wrapped object. -/
theorem replace_listMap_iff {ops : List Op} {h : Heap} {i j : Nat} {module_ : Bool}
    (hrun : run ops = .ok h) (hst : ∀ op ∈ ops, Spec.Op.StableMap op)
    (hi : (created ops)[i]? = some (.newReplace (.ref j))) (l : Slm) :
    (∃ h', apiListMap h i false module_ = .ok (l, h')) ↔
      ∃ l' h', apiListMap h j false module_ = .ok (l', h') ∧
        l = replaceListMap l' (sortedCalls ((requests ops i).map Request.call)) := by
  obtain ⟨A, hA, H⟩ := run_abs hrun
  have S := stable_of_ops hA hst
  have D := object_of_created hA hi
  simp only [objOf] at D
  rw [api_listMap_iff S H]
  constructor
  · rintro ⟨t, hu, hn⟩
    cases hu with
    | @replace _ cs c t e hc =>
      rw [D] at e; cases e
      rw [Tree.listMap] at hn
      cases hm : t.listMap false module_ with
      | error x => rw [hm] at hn; cases hn
      | ok n' =>
        rw [hm] at hn; cases hn
        obtain ⟨h', e⟩ := (api_listMap_iff S H j false module_ n').2 ⟨t, hc, hm⟩
        exact ⟨n', h', e, rfl⟩
    | raw e => rw [D] at e; cases e
    | original e => rw [D] at e; cases e
    | l2l e => rw [D] at e; cases e
    | sms e => rw [D] at e; cases e
    | concat e => rw [D] at e; cases e
    | prefixed e => rw [D] at e; cases e
  · rintro ⟨n', h', e, rfl⟩
    obtain ⟨t, hc, hm⟩ := (api_listMap_iff S H j false module_ n').1 ⟨h', e⟩
    exact ⟨_, .replace D hc, by rw [Tree.listMap, hm]; rfl⟩

/-- C45 for objects. The requests of a `ReplaceSource` are disjoint, without newlines in their texts, and
the wrapped object has no two lines in a row that come from the same line of a source. Then its list map
is that of the wrapped object with the requests applied from left to right (`es`): what stays keeps its
source and line. Full statement: for all disjoint requests and all wrapped objects; false, see
`C45_not_general`. -/
theorem C45_objects_partial (ops : List Op) (h : Heap) (i j : Nat) (module_ : Bool) (es : List Request)
    (m m' : LineMarked) (hrun : run ops = .ok h) (hst : ∀ op ∈ ops, Spec.Op.StableMap op)
    (hi : (created ops)[i]? = some (.newReplace (.ref j)))
    (hw : ∀ r ∈ requests ops i, r.Whole) (he : Arranged (requests ops i) es)
    (ht : ∀ r ∈ requests ops i, '\n' ∉ r.text)
    (hm' : MapAs h module_ (.ref j) m') (hr : NoRepeat m') (hm : MapAs h module_ (.ref i) m) :
    ∃ ets, Attributed (es.map Request.edit) ets ∧ m = spliceL m' 0 ets := by
  obtain ⟨l, h1, e, rfl⟩ := hm
  obtain ⟨l', h2, e', rfl⟩ := hm'
  obtain ⟨l2, h3, e2, rfl⟩ := (replace_listMap_iff hrun hst hi l).1 ⟨h1, e⟩
  rw [e'] at e2; cases e2
  have hE := sortedCalls_edits hw he
  obtain ⟨ets, k1, k2⟩ := replaced_kept l' (sortedCalls ((requests ops i).map Request.call))
    (api_listMap_merged hrun e') hr (by
      intro r hr
      have : r.edit ∈ (es.map Request.edit).reverse := by rw [← hE]; exact List.mem_map_of_mem hr
      obtain ⟨q, hq, e⟩ := List.mem_map.1 (List.mem_reverse.1 this)
      have := congrArg Edit.text e
      show '\n' ∉ r.edit.text
      rw [← this]
      exact ht q (he.perm.mem_iff.1 hq)) (by
      rw [hE, List.reverse_reverse]
      exact arranged_edits hw he)
  rw [hE, List.reverse_reverse] at k1
  exact ⟨ets, k1, k2⟩

/-- C45 fails in general: an inserted newline moves what follows it to the next line of the source, even
one that does not exist, when the line is merged with the one before
(`src/source_list_map/single_line_node.rs:56-72`). -/
theorem C45_not_general :
    lineMarksAfter [.newOriginal "x\nab".toList 1 2, .newReplace (.ref 0), .insert 1 3 "\n".toList 0] 1 =
      some [('x', some (1, 1)), ('\n', some (1, 1)), ('a', some (1, 2)), ('\n', some (1, 2)), ('b', some (1, 3))] ∧
    lineMarksAfter [.newOriginal "x\nab".toList 1 2] 0 =
      some [('x', some (1, 1)), ('\n', some (1, 1)), ('a', some (1, 2)), ('b', some (1, 2))] := by
  decide +kernel

/-! Non-trivial case: edits in and across lines of a concatenation. -/

/-- The history. -/
def C45_history : List Op :=
  [.newOriginal "ab\ncd\n".toList 3 4, .newConcat, .add 1 (.str "-\n".toList), .add 1 (.ref 0),
    .newReplace (.ref 1), .replace 2 3 5 "Y".toList 0 0, .insert 2 2 "X".toList 0, .insert 2 30 "Z".toList 0]

/-- Its requests from left to right. -/
def C45_arranged : List Request :=
  [⟨2, 0, 2, 0, "X".toList⟩, ⟨3, 0, 6, 0, "Y".toList⟩, ⟨30, 0, 30, 0, "Z".toList⟩]

example : (∀ r ∈ requests C45_history 2, r.ordS = 0 ∧ r.ordE = 0 ∧ r.start ≤ r.stop) ∧
    C45_arranged.Perm (requests C45_history 2) ∧
    C45_arranged.Pairwise (fun a b => a.stop ≤ b.start) := by decide +kernel

example : lineMarksAfter C45_history 1 = some
    [('-', none), ('\n', none), ('a', some (3, 1)), ('b', some (3, 1)), ('\n', some (3, 1)),
     ('c', some (3, 2)), ('d', some (3, 2)), ('\n', some (3, 2))] := by decide +kernel

example : lineMarksAfter C45_history 2 = some
    [('-', none), ('\n', none), ('X', none), ('a', some (3, 1)), ('Y', some (3, 1)),
     ('d', some (3, 2)), ('\n', some (3, 2)), ('Z', none)] := by decide +kernel

end WS
