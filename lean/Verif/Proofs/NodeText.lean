import Verif.Proofs.Seen
import Verif.Proofs.FromStringAttr
import Verif.Proofs.ReplaceNode
import Verif.Proofs.PrefixNode
/-! # The text of nodes -/

namespace WS
open Spec

/-- No leaf is empty. -/
def FullLeaves (L : List (Str × Option Origin)) : Prop := ∀ l ∈ L, l.1 ≠ []

theorem FullLeaves.append {A B : List (Str × Option Origin)} (ha : FullLeaves A) (hb : FullLeaves B) :
    FullLeaves (A ++ B) := by
  intro l hl
  rcases List.mem_append.1 hl with h | h
  · exact ha l h
  · exact hb l h

theorem FullLeaves.nil : FullLeaves [] := by intro l hl; cases hl

/-- Full leaves have text. -/
theorem FullLeaves.trailing {L : List (Str × Option Origin)} (h : FullLeaves L) : ¬ Trailing L := by
  rintro ⟨_, o, ho⟩
  exact h _ (List.mem_of_getLast? ho) rfl

theorem FullLeaves.ne_nil {L : List (Str × Option Origin)} (h : leavesText L ≠ []) : L ≠ [] := by
  rintro rfl
  exact h rfl

/-! ## OriginalSource, LineToLineMappedSource, RawSource -/

theorem splitItem_append (line : Str) : (splitItem line).1 ++ (splitItem line).2 = line := by
  simp [splitItem, List.append_assoc]

theorem splitItem_ne {line : Str} (h : line ≠ []) : (splitItem line).1 ≠ [] := by
  cases line with
  | nil => exact absurd rfl h
  | cons c cs =>
    simp only [splitItem]
    cases hc : isSep c <;> simp [hc]

theorem lineItems_spec : ∀ (fuel : Nat) (line : Str), line.length ≤ fuel →
    (lineItems fuel line).flatten = line ∧ ∀ i ∈ lineItems fuel line, i ≠ []
  | fuel, [], _ => by cases fuel <;> simp [lineItems]
  | 0, _ :: _, h => by simp at h
  | fuel + 1, c :: cs, h => by
    have h1 := splitItem_append (c :: cs)
    have h2 := splitItem_ne (line := c :: cs) (by simp)
    have hlen := congrArg List.length h1
    rw [List.length_append] at hlen
    have : 0 < (splitItem (c :: cs)).1.length := List.length_pos_iff.2 h2
    obtain ⟨i1, i2⟩ := lineItems_spec fuel (splitItem (c :: cs)).2 (by omega)
    rw [lineItems]
    dsimp only
    constructor
    · rw [List.flatten_cons, i1, h1]
    · intro i hi
      rcases List.mem_cons.1 hi with rfl | hi
      · exact h2
      · exact i2 i hi

/-- Leaves of the items of line `l`. -/
def itemLeaves (name : Int) (l : Nat) : Nat → List Str → List (Str × Option Origin)
  | _, [] => []
  | pos, item :: items =>
    if isBlank item then (item, none) :: itemLeaves name l pos items
    else (item, some ⟨name, l, pos, none⟩) :: itemLeaves name l (pos + blen item) items

theorem leavesList_mkStr (o : Option Origin) (pos : Option (Nat × Nat)) (src name : Option Int) {s : Str}
    (hs : s ≠ []) : SmNode.leavesList o [SmNode.mkStr pos src name s] = [(s, originOf pos src name)] := by
  simp [SmNode.mkStr, leavesList_single_node, addStrChild, hs, SmNode.leavesList]

theorem originalItems_leaves (name : Int) (l : Nat) : ∀ (items : List Str) (pos : Nat) (acc : List SmNode),
    (∀ i ∈ items, i ≠ []) →
    SmNode.leavesList none (originalItems name l pos acc items) =
      SmNode.leavesList none acc ++ itemLeaves name l pos items
  | [], pos, acc, _ => by simp [originalItems, itemLeaves]
  | item :: items, pos, acc, h => by
    have hi : item ≠ [] := h item (by simp)
    have ih := fun p a => originalItems_leaves name l items p a (fun i hi => h i (by simp [hi]))
    rw [originalItems, itemLeaves]
    by_cases hb : isBlank item = true
    · rw [if_pos hb, if_pos hb, ih]
      simp [addStrChild, hi, leavesList_append, SmNode.leavesList]
    · rw [if_neg hb, if_neg hb, ih, leavesList_append, leavesList_mkStr _ _ _ _ hi]
      simp [originOf]

/-- Leaves of line `l`. -/
def lineLeaves (columns : Bool) (name : Int) (l : Nat) (line : Str) : List (Str × Option Origin) :=
  if columns then itemLeaves name l 0 (lineItems line.length line)
  else if line.isEmpty then [] else [(line, some ⟨name, l, 0, none⟩)]

theorem originalLine_leaves (columns : Bool) (name : Int) (l : Nat) (line : Str) :
    SmNode.leavesList none [originalLine columns name l line] = lineLeaves columns name l line := by
  unfold originalLine lineLeaves
  cases columns with
  | true =>
    simp only [if_true]
    rw [leavesList_single_node]
    show SmNode.leavesList none _ = _
    rw [originalItems_leaves _ _ _ _ _ (lineItems_spec _ _ (Nat.le_refl _)).2]
    simp [SmNode.leavesList]
  | false =>
    simp only [Bool.false_eq_true, if_false]
    cases line with
    | nil => simp [SmNode.mkStr, leavesList_single_node, addStrChild, SmNode.leavesList]
    | cons c cs =>
      rw [leavesList_mkStr _ _ _ _ (by simp)]
      rfl

/-- Leaves of lines numbered from `i`. -/
def linesLeaves (columns : Bool) (name : Int) : Nat → List Str → List (Str × Option Origin)
  | _, [] => []
  | i, l :: ls => lineLeaves columns name i l ++ linesLeaves columns name (i + 1) ls

theorem originalLines_leaves (columns : Bool) (name : Int) : ∀ (ls : List Str) (i : Nat),
    SmNode.leavesList none (originalLines columns name i ls) = linesLeaves columns name i ls
  | [], i => by simp [originalLines, linesLeaves, SmNode.leavesList]
  | l :: ls, i => by
    rw [originalLines, leavesList_cons, linesLeaves, originalLine_leaves,
      originalLines_leaves columns name ls (i + 1)]

theorem itemLeaves_text (name : Int) (l : Nat) : ∀ (items : List Str) (pos : Nat),
    leavesText (itemLeaves name l pos items) = items.flatten
  | [], _ => rfl
  | item :: items, pos => by
    have ih := fun p => itemLeaves_text name l items p
    unfold leavesText at ih
    rw [itemLeaves]
    split <;> simp [leavesText, ih]

theorem itemLeaves_full (name : Int) (l : Nat) : ∀ (items : List Str) (pos : Nat),
    (∀ i ∈ items, i ≠ []) → FullLeaves (itemLeaves name l pos items)
  | [], _, _ => FullLeaves.nil
  | item :: items, pos, h => by
    have ih := fun p => itemLeaves_full name l items p (fun i hi => h i (by simp [hi]))
    have hi : item ≠ [] := h item (by simp)
    rw [itemLeaves]
    split
    · exact FullLeaves.append (A := [_]) (by intro x hx; simp at hx; subst hx; exact hi) (ih _)
    · exact FullLeaves.append (A := [_]) (by intro x hx; simp at hx; subst hx; exact hi) (ih _)

theorem lineLeaves_spec (columns : Bool) (name : Int) (l : Nat) (line : Str) :
    leavesText (lineLeaves columns name l line) = line ∧ FullLeaves (lineLeaves columns name l line) := by
  unfold lineLeaves
  cases columns with
  | true =>
    obtain ⟨h1, h2⟩ := lineItems_spec _ line (Nat.le_refl _)
    exact ⟨by simp [itemLeaves_text, h1], by simpa using itemLeaves_full name l _ 0 h2⟩
  | false =>
    cases line with
    | nil => exact ⟨rfl, FullLeaves.nil⟩
    | cons c cs =>
      refine ⟨by simp [leavesText], ?_⟩
      intro x hx
      simp at hx
      subst hx
      simp

theorem leavesText_append (A B : List (Str × Option Origin)) :
    leavesText (A ++ B) = leavesText A ++ leavesText B := by simp [leavesText]

theorem linesLeaves_spec (columns : Bool) (name : Int) : ∀ (ls : List Str) (i : Nat),
    leavesText (linesLeaves columns name i ls) = ls.flatten ∧ FullLeaves (linesLeaves columns name i ls)
  | [], i => ⟨rfl, FullLeaves.nil⟩
  | l :: ls, i => by
    obtain ⟨h1, h2⟩ := linesLeaves_spec columns name ls (i + 1)
    obtain ⟨h3, h4⟩ := lineLeaves_spec columns name i l
    exact ⟨by rw [linesLeaves, leavesText_append, h1, h3, List.flatten_cons], h4.append h2⟩

theorem originalNode_leaves (columns : Bool) (v : Str) (name k : Int) :
    (originalNode columns v name k).leaves = linesLeaves columns name 1 (splitKeep '\n' v) := by
  unfold originalNode
  rw [SmNode.leaves]
  exact originalLines_leaves columns name _ 1

theorem l2lNode_leaves (v : Str) (name k : Int) :
    (l2lNode v name k).leaves = linesLeaves false name 1 (splitKeep '\n' v) := by
  unfold l2lNode
  rw [SmNode.leaves]
  exact originalLines_leaves false name _ 1

theorem rawNode_leaves (v : Str) :
    (rawNode v).leaves = if v.isEmpty then [] else [(v, none)] := by
  unfold rawNode SmNode.mkStr
  rw [SmNode.leaves]
  cases v <;> simp [addStrChild, SmNode.leavesList, originOf]

/-! ## SourceMapSource -/

theorem full_addStr {ch : List SmNode} (h : FullLeaves (SmNode.leavesList none ch)) (s : Str) :
    FullLeaves (SmNode.leavesList none (addStrChild ch s)) := by
  unfold addStrChild
  split
  · exact h
  · rename_i hs
    rw [leavesList_append]
    refine h.append ?_
    intro l hl
    simp [SmNode.leavesList] at hl
    subst hl
    simpa using hs

theorem full_addMapping {ch : List SmNode} (h : FullLeaves (SmNode.leavesList none ch)) (m : Option Mapping)
    (s : Str) : FullLeaves (SmNode.leavesList none (addMappingWithCode ch m s)) := by
  unfold addMappingWithCode
  cases m with
  | none => exact full_addStr h s
  | some m =>
    dsimp only
    split
    · rw [leavesList_append]
      refine h.append ?_
      cases s with
      | nil => simp [SmNode.mkStr, leavesList_single_node, addStrChild, SmNode.leavesList, FullLeaves.nil]
      | cons c cs =>
        rw [leavesList_mkStr _ _ _ _ (by simp)]
        intro l hl
        simp at hl
        subst hl
        simp
    · exact full_addStr h s

theorem full_skipLines : ∀ (k : Nat) (st : FsState), FullLeaves (SmNode.leavesList none st.children) →
    FullLeaves (SmNode.leavesList none (skipLines k st).children)
  | 0, _, h => h
  | k + 1, st, h => by
    rw [skipLines]
    exact full_skipLines k _ (full_addStr h _)

theorem full_fsTail {st st' : FsState} {m : Mapping} (h : FullLeaves (SmNode.leavesList none st.children))
    (e : fsTail st m = .ok st') : FullLeaves (SmNode.leavesList none st'.children) := by
  unfold fsTail at e
  dsimp only at e
  have h2 := full_skipLines (m.generated.1 - st.lastPos.1) st h
  split at e
  · split at e
    · cases e
    · cases e; exact full_addStr h2 _
  · cases e; exact h2

theorem full_fsStep {st st' : FsState} {m : Mapping} (h : FullLeaves (SmNode.leavesList none st.children))
    (e : fsStep st m = .ok st') : FullLeaves (SmNode.leavesList none st'.children) := by
  unfold fsStep at e
  split at e
  · rename_i lm _
    split at e
    · dsimp only at e
      refine full_fsTail ?_ e
      dsimp only
      exact full_addMapping h (some lm) _
    · split at e
      · cases e
      · cases e
        dsimp only
        exact full_addMapping h (some lm) _
  · exact full_fsTail h e

theorem full_fsLoop : ∀ (ms : List Mapping) {st st' : FsState},
    FullLeaves (SmNode.leavesList none st.children) → fsLoop st ms = .ok st' →
    FullLeaves (SmNode.leavesList none st'.children)
  | [], _, _, h, e => by cases e; exact h
  | m :: ms, st, st', h, e => by
    rw [fsLoop] at e
    split at e
    · cases e
    · rename_i e1; exact full_fsLoop ms (full_fsStep h e1) e

theorem fromString_full {code : Str} {g : Generator} {n : SmNode}
    (h : fromStringWithGenerator code g = .ok n) : FullLeaves n.leaves ∧ n.IsNode := by
  unfold fromStringWithGenerator at h
  dsimp only at h
  split at h
  · cases h
  · rename_i st e
    cases h
    refine ⟨?_, trivial⟩
    rw [SmNode.leaves]
    have h := full_fsLoop _ (by rw [SmNode.leavesList]; exact FullLeaves.nil) e
    show FullLeaves (SmNode.leavesList none (fsFinish st))
    unfold fsFinish
    split
    · split
      · exact full_addStr (full_addMapping h _ _) _
      · exact full_addStr h _
    · exact h

/-- The node of a `SourceMapSource` has its text, whatever maps it has. -/
theorem Sms.node_text {s s' : Sms} {n : SmNode} (h : s.node = .ok (n, s')) :
    n.text = s.value ∧ n.IsNode ∧ FullLeaves n.leaves := by
  have key : ∀ g, fromStringWithGenerator s.value g = .ok n →
      n.text = s.value ∧ n.IsNode ∧ FullLeaves n.leaves := by
    intro g hg
    obtain ⟨n', e, ht⟩ := fromString_text s.value g
    rw [hg] at e; cases e
    exact ⟨ht, (fromString_full hg).2, (fromString_full hg).1⟩
  obtain ⟨g, map, _, ⟨_, hg, _⟩ | ⟨_, _, _, _, _, _, _, _, hg, _⟩⟩ := Sms.node_ok h
  · exact key _ hg
  · exact key _ hg

/-! ## Trees -/

mutual
  /-- Every `PrefixSource` of the tree wraps a source whose node has a leaf and does not end in an
  empty leaf after a newline. -/
  def Tree.PrefixFit (cols mod : Bool) : Tree → Prop
    | .prefixed _ t => t.PrefixFit cols mod ∧
        ∀ n, t.node cols mod = .ok n → n.leaves ≠ [] ∧ ¬ Trailing n.leaves
    | .replace t _ => t.PrefixFit cols mod
    | .concat ts => Tree.PrefixFits cols mod ts
    | _ => True
  /-- The same of a list of trees. -/
  def Tree.PrefixFits (cols mod : Bool) : List Tree → Prop
    | [] => True
    | t :: ts => t.PrefixFit cols mod ∧ Tree.PrefixFits cols mod ts
end

theorem leavesList_none_item (n : SmNode) : SmNode.leavesList none [n] = n.leaves := by
  cases n with
  | str s => simp [SmNode.leavesList, SmNode.leaves]
  | node => rw [leavesList_single_node, SmNode.leaves]

/-- The leaves of a concatenation are those of its items. -/
theorem mkVec_leaves (ns : List SmNode) :
    (SmNode.mkVec none none none ns).leaves = ns.flatMap SmNode.leaves := by
  unfold SmNode.mkVec
  rw [SmNode.leaves]
  show SmNode.leavesList none ns = _
  induction ns with
  | nil => simp [SmNode.leavesList]
  | cons n ns ih => rw [leavesList_cons, ih, leavesList_none_item]; simp

mutual
  theorem Tree.node_text (cols mod : Bool) : ∀ (t : Tree) (n : SmNode), t.PrefixFit cols mod →
      t.node cols mod = .ok n → n.IsNode ∧ n.text = t.text
    | .str s, n, _, h => by simp [Tree.node] at h
    | .raw v, n, _, h => by
      cases h
      refine ⟨trivial, ?_⟩
      unfold SmNode.text
      rw [rawNode_leaves]
      cases v <;> simp [Tree.text]
    | .original v nm k, n, _, h => by
      cases h
      refine ⟨trivial, ?_⟩
      unfold SmNode.text
      rw [originalNode_leaves]
      exact (linesLeaves_spec _ _ _ _).1.trans (splitKeep_flatten _ _)
    | .l2l v nm k, n, _, h => by
      cases h
      refine ⟨trivial, ?_⟩
      unfold SmNode.text
      rw [l2lNode_leaves]
      exact (linesLeaves_spec _ _ _ _).1.trans (splitKeep_flatten _ _)
    | .sms s, n, _, h => by
      rw [Tree.node] at h
      cases hs : s.node with
      | error e => rw [hs] at h; cases h
      | ok q =>
        rw [hs] at h; cases h
        have := Sms.node_text (n := q.1) (s' := q.2) hs
        exact ⟨this.2.1, this.1⟩
    | .prefixed p t, n, hp, h => by
      rw [Tree.PrefixFit] at hp
      rw [Tree.node] at h
      cases hn : t.node cols mod with
      | error e => rw [hn] at h; cases h
      | ok m =>
        rw [hn] at h; cases h
        obtain ⟨h1, h2⟩ := Tree.node_text cols mod t m hp.1 hn
        obtain ⟨h3, h4⟩ := hp.2 m hn
        refine ⟨(prefixNode_leaves p h1).1, ?_⟩
        rw [prefixNode_text p h1, if_neg h3, if_neg h4, h2, Tree.text, List.append_nil]
    | .replace t cs, n, hp, h => by
      rw [Tree.PrefixFit] at hp
      rw [Tree.node] at h
      cases hn : t.node cols mod with
      | error e => rw [hn] at h; cases h
      | ok m =>
        rw [hn] at h
        obtain ⟨h1, h2⟩ := Tree.node_text cols mod t m hp hn
        change replaceNode m (sortedCalls cs) = .ok n at h
        obtain ⟨n', e, h3, _⟩ := replaceNode_leaves h1 (sortedCalls cs)
        have h' := h
        rw [e] at h'; cases h'
        exact ⟨h3, by rw [replaceNode_text h1 _ h, h2, Tree.text]⟩
    | .concat ts, n, hp, h => by
      rw [Tree.PrefixFit] at hp
      rw [Tree.node] at h
      cases hn : Tree.nodes cols mod ts with
      | error e => rw [hn] at h; cases h
      | ok ns =>
        rw [hn] at h; cases h
        refine ⟨trivial, ?_⟩
        unfold SmNode.text
        rw [mkVec_leaves, Tree.text, ← Tree.nodes_text cols mod ts ns hp hn]
        simp only [List.flatMap, List.map_flatten, List.flatten_flatten, List.map_map]
        rfl
  theorem Tree.nodes_text (cols mod : Bool) : ∀ (ts : List Tree) (ns : List SmNode),
      Tree.PrefixFits cols mod ts → Tree.nodes cols mod ts = .ok ns →
      ns.map SmNode.text = Tree.texts ts
    | [], ns, _, h => by cases h; rfl
    | t :: ts, ns, hp, h => by
      rw [Tree.PrefixFits] at hp
      rw [Tree.nodes_eq, allM, ← Tree.nodes_eq] at h
      cases hn : Tree.itemNode cols mod t with
      | error e => rw [hn] at h; cases h
      | ok n =>
        rw [hn] at h
        cases hns : Tree.nodes cols mod ts with
        | error e => rw [hns] at h; cases h
        | ok ns' =>
          rw [hns] at h; cases h
          rw [List.map_cons, Tree.texts, Tree.nodes_text cols mod ts ns' hp.2 hns]
          congr 1
          cases t with
          | str s => cases hn; simp [SmNode.text, SmNode.leaves, Tree.text]
          | _ => exact (Tree.node_text cols mod _ n hp.1 hn).2
end

end WS
