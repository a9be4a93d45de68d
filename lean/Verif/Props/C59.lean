import Verif.Model.JsNode
import Verif.Proofs.NodeNames
/-!
# C59: what the map of a tree of source nodes says

Claim: `toStringWithSourceMap()` of a source node gives the strings put into the node and the nodes
below it one after the other, and its map attributes every character to the file, line and column of the
innermost node it was put into. The part of a node obtained by `node()` of an object is attributed as
when that node is rendered alone, which is as `sourceAndMap()` says.
-/

namespace WS
open Spec

/-! ## Spec: what the statements of a program say -/

/-- Where a character comes from: a file (`none` is `null`), line, column and name. -/
structure Spec.Place where
  file : JVal
  line : Nat
  col : Nat
  name : Option JVal
  deriving DecidableEq

/-- A text with, for every character, where it comes from. -/
abbrev Spec.PlacedMarks := List (Char × Option Place)

/-- A node: where strings put directly into it come from, and the characters in it. -/
structure Spec.NDesc where
  own : Option Place
  marks : PlacedMarks
  deriving DecidableEq

/-- What putting something into node `i` does to the descriptions. A node put into another one is gone. -/
def Spec.putInto (i : Nat) (ds : List (Option NDesc)) : NItem → List (Option NDesc)
  | .str s => ds.set i (ds[i]?.join.map fun d => { d with marks := d.marks ++ s.map fun c => (c, d.own) })
  | .node j => (ds.set j none).set i (ds[i]?.join.bind fun d => ds[j]?.join.map fun b =>
      { d with marks := d.marks ++ b.marks })

/-- Where the strings in a new node come from: nowhere if there is no file. -/
def Spec.ownPlace (line col : Nat) (source : Option Str) : Option Place :=
  (truthy source).map fun f => ⟨some f, line, col, none⟩

/-- What a statement says of the nodes; `none`: nothing. `given` says what is in the nodes obtained from
objects, by the number of the node. -/
def Spec.describeNode (given : Nat → Option PlacedMarks) (ds : List (Option NDesc)) : NOp → List (Option NDesc)
  | .newNode line col source items =>
    items.foldl (putInto ds.length) (ds ++ [some ⟨ownPlace line col source, []⟩])
  | .node _ _ _ => ds ++ [(given ds.length).map fun m => ⟨none, m⟩]
  | .add i items => items.foldl (putInto i) ds
  | _ => ds

/-- What a program says of its nodes. -/
def Spec.nodeDescriptions (given : Nat → Option PlacedMarks) (ops : List NOp) : List (Option NDesc) :=
  ops.foldl (describeNode given) []

/-- The properties of the pair, as they read, give the text, and attribute every character as said. -/
def Spec.ShowsPlaces (w : World) (k : Nat) (m : PlacedMarks) : Prop :=
  Reads w k .source (.text (m.map Prod.fst)) ∧
  ∃ l ns s ps, Reads w k .sources (.list l) ∧ Reads w k .names (.list ns) ∧ Reads w k .mappings (.text s) ∧
    points (idTable l.length) (idTable ns.length) s = some ps ∧
    ∀ i c o, m[i]? = some (c, o) →
      (lookup ps (posAfter ((m.take i).map Prod.fst)).1 (posAfter ((m.take i).map Prod.fst)).2).map
        (fun x => (l[x.source.toNat]?, x.line, x.col, x.name.map fun n => ns[n.toNat]?)) =
      o.map fun p => (some p.file, p.line, p.col, p.name.map some)

/-- What is required where a node is obtained from an object, if anything is said of it: rendering it
shows what is said, and no `ReplaceSource` is in the object. -/
def Spec.Alone (given : Nat → Option PlacedMarks) (w : NWorld) : NOp → Prop
  | .node j c m => ∀ g, given w.nodes.length = some g →
      (∃ w1 w2 k, (NOp.node j c m).run w = .ok (.done, w1) ∧
        (NOp.render w.nodes.length).run w1 = .ok (.pair k, w2) ∧ ShowsPlaces w2.base k g) ∧
      ∀ o, w.base.objs[j]? = some o → ∀ i, Contains w.base.heap i (.ref o.ptr) →
        ∀ c rs b, w.base.heap[i]? ≠ some (.replace c rs b)
  | _ => True

/-- The same for every statement of a program. -/
def Spec.AllAlone (given : Nat → Option PlacedMarks) : NWorld → List NOp → Prop
  | _, [] => True
  | w, op :: ops => Alone given w op ∧ ∀ a w', op.run w = .ok (a, w') → AllAlone given w' ops

/-- Lines of new nodes count from 1 and fit `u32`, as do columns; texts have at most 2^32 lines. -/
def Spec.NOp.Sized : NOp → Prop
  | .js op => JOp.FewLines op
  | .newNode line col source _ => truthy source ≠ none → 1 ≤ line ∧ line < 4294967296 ∧ col < 4294967296
  | _ => True

/-! ## Strings -/

/-- An origin by name. -/
def place (t : StrTable JVal) (o : Origin) : Place := ⟨t.name o.source, o.line, o.col, o.name.map t.name⟩

/-- Marks by name. -/
def placed (t : StrTable JVal) (m : Marked) : PlacedMarks := m.map fun p => (p.1, p.2.map (place t))

/-- The strings of an origin are in the table. -/
def OriginHas (t : StrTable JVal) (o : Origin) : Prop := t.Has o.source ∧ ∀ x, o.name = some x → t.Has x

theorem stands_has {t : StrTable JVal} {P : JVal → Prop} {i : Int} (h : Stands t P i) : t.Has i := by
  obtain ⟨h0, v, hv, -⟩ := h
  refine ⟨some v, ?_⟩
  rw [StrTable.at, if_neg (by omega), hv]

variable {U : Pool}

theorem dom_has {t : StrTable JVal} {i : Int} (h : (dom U t).S i) : t.Has i := by
  rcases h with rfl | h
  · exact t.has_neg.1
  · exact stands_has h.stands

/-- All the strings are in the table. -/
def hasDom (t : StrTable JVal) : Dom := ⟨t.Has, t.Has, t.Has⟩

theorem dom_sub_has (t : StrTable JVal) : (dom U t).Sub (hasDom t) :=
  ⟨fun _ h => dom_has h, fun _ h => stands_has h, fun _ h => stands_has h.stands⟩

theorem hasDom_grow {t t' : StrTable JVal} (g : ∃ r, t'.array = t.array ++ r) :
    (hasDom t).Sub (hasDom t') :=
  ⟨fun _ h => (StrTable.Has.mono g h).1, fun _ h => (StrTable.Has.mono g h).1,
    fun _ h => (StrTable.Has.mono g h).1⟩

theorem SmNode.In.origins {t : StrTable JVal} {n : SmNode} (h : n.In (hasDom t)) :
    ∀ l ∈ n.leaves, ∀ o, l.2 = some o → OriginHas t o := fun l hl o ho =>
  have := h.leaves l hl o ho
  ⟨this.1, fun x hx => this.2 x hx⟩

theorem place_mono {t t' : StrTable JVal} (g : ∃ r, t'.array = t.array ++ r) {o : Origin}
    (h : OriginHas t o) : place t' o = place t o := by
  simp only [place, (StrTable.Has.mono g h.1).2, Place.mk.injEq, true_and]
  cases hn : o.name with
  | none => rfl
  | some x => simp [(StrTable.Has.mono g (h.2 x hn)).2]

theorem mem_marked {L : List (Str × Option Origin)} {p : Char × Option Origin} (h : p ∈ marked L) :
    ∃ l ∈ L, l.2 = p.2 := by
  obtain ⟨l, hl, hp⟩ := List.mem_flatMap.1 h
  obtain ⟨c, -, rfl⟩ := List.mem_map.1 hp
  exact ⟨l, hl, rfl⟩

theorem SmNode.In.marks_has {t : StrTable JVal} {n : SmNode} (h : n.In (hasDom t)) :
    ∀ p ∈ n.marks, ∀ o, p.2 = some o → OriginHas t o := by
  intro p hp o ho
  obtain ⟨l, hl, e⟩ := mem_marked hp
  exact h.origins l hl o (e.trans ho)

theorem placed_mono {t t' : StrTable JVal} (g : ∃ r, t'.array = t.array ++ r) {m : Marked}
    (h : ∀ p ∈ m, ∀ o, p.2 = some o → OriginHas t o) : placed t' m = placed t m := by
  apply List.map_congr_left
  intro p hp
  cases ho : p.2 with
  | none => rfl
  | some o => simp [place_mono g (h p hp o ho)]

theorem SmNode.In.mono {D E : Dom} (L : D.Sub E) : ∀ {n : SmNode}, n.In D → n.In E := by
  intro n h
  induction h with
  | str s => exact .str s
  | node h1 h2 h3 _ ih =>
    exact .node (fun x hx => L.S x (h1 x hx)) (fun x hx => L.N x (h2 x hx)) (fun p hp => L.C _ (h3 p hp)) ih

theorem leavesText_marked (L : List (Str × Option Origin)) :
    (marked L).map Prod.fst = (L.map Prod.fst).flatten := by
  induction L with
  | nil => rfl
  | cons l L ih =>
    simp only [marked, List.flatMap_cons, List.map_append, List.map_cons, List.flatten_cons] at ih ⊢
    rw [ih]
    simp [Function.comp_def]

/-! ## What a rendered node shows -/

theorem node_map {n : SmNode} {r : StringWithSourceMap} (h : n.toStringWithSourceMap none none = .ok r) :
    (n.toStringWithGenerator none none).1 = r.source ∧
    ∃ g', (n.toStringWithGenerator none none).2.toSourceMap = .ok (r.map, g') := by
  unfold SmNode.toStringWithSourceMap at h
  dsimp only at h
  simp only [SmNode.toStringWithGenerator]
  split at h
  · cases h
  · rename_i m e1
    cases h
    exact ⟨rfl, _, e1⟩

/-- A pair that tells what the node says shows what its map attributes. -/
theorem shows_of_attributes {w : World} {k : Nat} {n : SmNode} (hin : n.In (hasDom w.strs)) {m : Marked}
    {r : StringWithSourceMap} {qs : List Point} (hr : n.toStringWithSourceMap none none = .ok r)
    (hq : mapPoints r.map = some qs) (hat : Attributes qs m) (htext : m.map Prod.fst = r.source)
    (tells : ∀ f, ∃ e, w.maps[k]? = some e ∧ e.Tells true r.source r.map f w.strs) :
    ShowsPlaces w k (placed w.strs m) := by
  obtain ⟨-, g', hg⟩ := node_map hr
  have hmap := ((toStringWithGenerator_in hin none none).toSourceMap hg).1
  have hv := StrTable.values_get (t := w.strs) (ids := r.map.sources) fun i hi => hmap.sources i hi
  have hn := StrTable.values_get (t := w.strs) (ids := r.map.names) fun i hi => hmap.names i hi
  have hfst : (placed w.strs m).map Prod.fst = m.map Prod.fst := by
    simp [placed, Function.comp_def]
  constructor
  · obtain ⟨e, k1, k2⟩ := tells .source
    refine Tells.reads k1 k2 ?_
    show JFieldVal.text _ = .text _
    rw [hfst, htext]
  · rw [mapPoints, points_rename, points_renameName] at hq
    cases hp : points (idTable r.map.sources.length) (idTable r.map.names.length) r.map.mappings with
    | none => rw [hp] at hq; cases hq
    | some ps =>
      rw [hp] at hq
      have hq : qs = (ps.map (renameName r.map.names)).map (renamePoint r.map.sources) := by
        simpa using hq.symm
      refine ⟨r.map.sources.map w.strs.name, r.map.names.map w.strs.name, r.map.mappings, ps, ?_, ?_, ?_,
        by rw [List.length_map, List.length_map]; exact hp, ?_⟩
      · obtain ⟨e, k1, k2⟩ := tells .sources
        exact Tells.reads k1 k2 ⟨_, hv, rfl⟩
      · obtain ⟨e, k1, k2⟩ := tells .names
        refine Tells.reads k1 k2 ?_
        simp only [Displays, if_true]
        exact ⟨_, hn, rfl⟩
      · obtain ⟨e, k1, k2⟩ := tells .mappings
        exact Tells.reads k1 k2 rfl
      · intro i c o hi
        rw [placed, List.getElem?_map] at hi
        obtain ⟨⟨c', o'⟩, hi', hco⟩ := Option.map_eq_some_iff.1 hi
        cases hco
        have := hat i c' o' hi'
        rw [hq, lookup_rename, lookup_renameName] at this
        rw [List.map_take, hfst, ← List.map_take]
        generalize posAfter _ = pos at this ⊢
        cases hl : lookup ps pos.1 pos.2 with
        | none => rw [hl] at this; subst this; rfl
        | some x =>
          rw [hl] at this
          have h1 := lookup_inRange hp hl
          have h2 := lookup_nameRange hp hl
          subst this
          simp only [Option.map_some, renameOrigin, renameNameOrigin, place, List.getElem?_map,
            List.getElem?_eq_getElem h1, Option.getD_some, Option.map_map, Option.some.injEq, Prod.mk.injEq,
            true_and]
          cases hx : x.name with
          | none => rfl
          | some y => simp [List.getElem?_eq_getElem (h2 y hx)]

/-- A pair that tells what the node says shows it. -/
theorem shows_of_tells {w : World} {k : Nat} {n : SmNode} (hin : n.In (hasDom w.strs))
    (hok : ∀ l ∈ n.leaves, LeafOk l)
    (tells : ∀ r, n.toStringWithSourceMap none none = .ok r → ∀ f,
      ∃ e, w.maps[k]? = some e ∧ e.Tells true r.source r.map f w.strs) :
    ShowsPlaces w k (placed w.strs n.marks) := by
  obtain ⟨r, qs, hr, hq, hat, -, htext⟩ := C09_attribution_partial n none none hok
  exact shows_of_attributes hin hr hq hat (by rw [SmNode.marks, leavesText_marked, htext]; rfl) (tells r hr)

theorem reads_unique {w : World} {k : Nat} {f : JField} {u v : JFieldVal} (h : Reads w k f u)
    (h' : Reads w k f v) : u = v := by
  obtain ⟨w1, h1⟩ := h
  obtain ⟨w2, h2⟩ := h'
  rw [h1] at h2
  cases h2
  rfl

theorem placed_inj {o o' : Option Place} (h : (o.map fun p => (some p.file, p.line, p.col, p.name.map some)) =
    o'.map fun p => (some p.file, p.line, p.col, p.name.map some)) : o = o' := by
  cases o with
  | none => cases o' with
    | none => rfl
    | some q => cases h
  | some p => cases o' with
    | none => cases h
    | some q =>
      obtain ⟨a, b, c, d⟩ := p
      obtain ⟨a', b', c', d'⟩ := q
      simp only [Option.map_some, Option.some.injEq, Prod.mk.injEq] at h
      obtain ⟨rfl, rfl, rfl, h⟩ := h
      cases d <;> cases d' <;> simp_all

/-- A pair shows one thing. -/
theorem ShowsPlaces.unique {w : World} {k : Nat} {m m' : PlacedMarks} (h : ShowsPlaces w k m)
    (h' : ShowsPlaces w k m') : m = m' := by
  obtain ⟨h1, l, ns, s, ps, h2, h3, h4, h5, h6⟩ := h
  obtain ⟨h1', l', ns', s', ps', h2', h3', h4', h5', h6'⟩ := h'
  cases reads_unique h2 h2'
  cases reads_unique h3 h3'
  cases reads_unique h4 h4'
  rw [h5] at h5'
  cases h5'
  have ht : m.map Prod.fst = m'.map Prod.fst := by
    have := reads_unique h1 h1'
    simpa using this
  apply List.ext_getElem?
  intro i
  have hi := congrArg (fun l => l[i]?) ht
  simp only [List.getElem?_map] at hi
  have htake : (m.take i).map Prod.fst = (m'.take i).map Prod.fst := by
    rw [List.map_take, List.map_take, ht]
  cases hm : m[i]? with
  | none => rw [hm] at hi; exact (by simpa using hi.symm : m'[i]? = none).symm ▸ rfl
  | some x =>
    obtain ⟨c, o⟩ := x
    rw [hm] at hi
    cases hm' : m'[i]? with
    | none => rw [hm'] at hi; cases hi
    | some y =>
      obtain ⟨c', o'⟩ := y
      rw [hm'] at hi
      simp only [Option.map_some, Option.some.injEq] at hi
      have a := h6 i c o hm
      have b := h6' i c' o' hm'
      rw [htake] at a
      rw [a] at b
      rw [hi, placed_inj b]

/-! ## The state -/

/-- A node is as described. -/
structure NodeGood (t : StrTable JVal) (n : SmNode) (d : NDesc) : Prop where
  own : ∀ pos src name cs ch, n = .node pos src name cs ch → d.own = (originOf pos src name).map (place t)
  quiet : Quiet n.leaves
  marks : d.marks = placed t n.marks

/-- What is kept of every node. -/
structure NodeKept (U : Pool) (t : StrTable JVal) (n : SmNode) : Prop where
  isNode : n.IsNode
  within : n.In (dom U t)
  lined : n.Lined

theorem NodeKept.has {t : StrTable JVal} {n : SmNode} (h : NodeKept U t n) : n.In (hasDom t) :=
  h.within.mono (dom_sub_has t)

theorem NodeKept.mono {t t' : StrTable JVal} (g : t.Ext t') {n : SmNode}
    (h : NodeKept U t n) : NodeKept U t' n := ⟨h.isNode, h.within.mono (dom_grow U g), h.lined⟩

theorem NodeGood.mono {t t' : StrTable JVal} (g : ∃ r, t'.array = t.array ++ r) {n : SmNode} {d : NDesc}
    (h : NodeGood t n d) (hk : NodeKept U t n) : NodeGood t' n d := by
  refine ⟨?_, h.quiet, ?_⟩
  · intro pos src name cs ch e
    rw [h.own pos src name cs ch e]
    subst e
    cases ho : originOf pos src name with
    | none => rfl
    | some o =>
      have : OriginHas t o := by
        cases pos with
        | none => cases ho
        | some p =>
          cases src with
          | none => cases ho
          | some x =>
            cases ho
            cases hk.has with
            | node h1 h2 _ _ => exact ⟨h1 x rfl, fun y hy => h2 y hy⟩
      simp [place_mono g this]
  · rw [h.marks, placed_mono g hk.has.marks_has]

theorem NodeGood.leafOk {t : StrTable JVal} {n : SmNode} {d : NDesc} (h : NodeGood t n d)
    (hl : n.Lined) : ∀ l ∈ n.leaves, LeafOk l := fun l hm o ho =>
  ⟨fun e => (by rw [h.quiet l hm e] at ho; cases ho), hl.leaves l hm o ho⟩

structure NFits (U : Pool) (w : NWorld) (ds : List (Option NDesc)) : Prop where
  base : w.base.Within U
  lined : w.base.Lined
  kept : ∀ n, some n ∈ w.nodes → NodeKept U w.base.strs n
  length : ds.length = w.nodes.length
  good : ∀ (i : Nat) n d, w.nodes[i]? = some (some n) → ds[i]? = some (some d) → NodeGood w.base.strs n d

theorem NFits.rebase {w : NWorld} {ds : List (Option NDesc)} (F : NFits U w ds) {b : World}
    (hw : b.Within U) (hl : b.Lined) (g : w.base.strs.Ext b.strs) :
    NFits U { w with base := b } ds :=
  ⟨hw, hl, fun n hn => (F.kept n hn).mono g, F.length, fun i n d h1 h2 =>
    (F.good i n d h1 h2).mono g.array (F.kept n (List.mem_of_getElem? h1))⟩

theorem NFits.push {w : NWorld} {ds : List (Option NDesc)} (F : NFits U w ds) {n : SmNode} {d : Option NDesc}
    (hk : NodeKept U w.base.strs n) (hg : ∀ x, d = some x → NodeGood w.base.strs n x) :
    NFits U { w with nodes := w.nodes ++ [some n] } (ds ++ [d]) := by
  refine ⟨F.base, F.lined, ?_, by simp [F.length], ?_⟩
  · intro x hx
    rcases List.mem_append.1 hx with hx | hx
    · exact F.kept x hx
    · cases List.mem_singleton.1 hx; exact hk
  · intro i x y h1 h2
    dsimp only at h1
    by_cases hi : i < w.nodes.length
    · rw [List.getElem?_append_left hi] at h1
      rw [List.getElem?_append_left (by rw [F.length]; exact hi)] at h2
      exact F.good i x y h1 h2
    · rw [List.getElem?_append_right (Nat.le_of_not_lt hi)] at h1
      rw [List.getElem?_append_right (by rw [F.length]; exact Nat.le_of_not_lt hi), F.length] at h2
      cases hj : i - w.nodes.length with
      | zero =>
        rw [hj] at h1 h2
        simp only [List.getElem?_cons_zero, Option.some.injEq] at h1 h2
        subst h1
        exact hg y h2
      | succ j => rw [hj] at h1; simp at h1

theorem NFits.set {w : NWorld} {ds : List (Option NDesc)} (F : NFits U w ds) (i : Nat)
    {v : Option SmNode} {d : Option NDesc} (hk : ∀ n, v = some n → NodeKept U w.base.strs n)
    (hg : ∀ n x, v = some n → d = some x → NodeGood w.base.strs n x) :
    NFits U { w with nodes := w.nodes.set i v } (ds.set i d) := by
  refine ⟨F.base, F.lined, ?_, by simp [F.length], ?_⟩
  · intro n hn
    rcases List.mem_or_eq_of_mem_set hn with hn | hn
    · exact F.kept n hn
    · exact hk n hn.symm
  · intro j n x h1 h2
    dsimp only at h1
    rw [List.getElem?_set] at h1 h2
    split at h1
    · rename_i hij
      rw [if_pos hij] at h2
      split at h1
      · rename_i hlt
        rw [if_pos (by rw [F.length]; exact hlt)] at h2
        exact hg n x (by simpa using h1) (by simpa using h2)
      · cases h1
    · rename_i hij
      rw [if_neg hij] at h2
      exact F.good j n x h1 h2

theorem placed_append (t : StrTable JVal) (a b : Marked) : placed t (a ++ b) = placed t a ++ placed t b := by
  simp [placed]

theorem marks_addStr (pos : Option (Nat × Nat)) (src name : Option Int) (cs : List (Int × Int))
    (ch : List SmNode) (s : Str) : (SmNode.node pos src name cs (addStrChild ch s)).marks =
      (SmNode.node pos src name cs ch).marks ++ s.map fun c => (c, originOf pos src name) := by
  simp only [SmNode.marks, SmNode.leaves, addStrChild]
  split
  · rename_i h
    have : s = [] := by simpa using h
    subst this
    simp
  · rw [leavesList_append, marked_append]
    simp [SmNode.leavesList, marked]

theorem marks_addNode (pos : Option (Nat × Nat)) (src name : Option Int) (cs : List (Int × Int))
    (ch : List SmNode) {n : SmNode} (hn : n.IsNode) : (SmNode.node pos src name cs (ch ++ [n])).marks =
      (SmNode.node pos src name cs ch).marks ++ n.marks := by
  simp only [SmNode.marks, SmNode.leaves]
  rw [leavesList_append, marked_append, leaves_of_isNode hn]

theorem NFits.addItem {w w' : NWorld} {ds : List (Option NDesc)} (F : NFits U w ds) {i : Nat} {x : NItem}
    (r : w.addItem i x = .ok w') : NFits U w' (putInto i ds x) := by
  unfold NWorld.addItem at r
  split at r
  · cases r
  · rename_i pos src name cs ch hi
    have K := F.kept _ (List.mem_of_getElem? hi)
    obtain ⟨-, Kin, Kl⟩ := K
    cases Kin with
    | node a1 a2 a3 a4 =>
    cases Kl with
    | node b1 b2 =>
    split at r
    · rename_i s
      cases r
      refine F.set i (fun n hn => ?_) (fun n d hn hd => ?_)
      · cases hn
        exact ⟨trivial, .node a1 a2 a3 (addStrChild_in a4 s), .node b1 (addStrChild_lined b2 s)⟩
      · cases hn
        obtain ⟨d', hd', rfl⟩ := Option.map_eq_some_iff.1 hd
        have G := F.good i _ d' hi (join_some hd')
        refine ⟨?_, ?_, ?_⟩
        · intro _ _ _ _ _ e
          cases e
          exact G.own _ _ _ _ _ rfl
        · have := G.quiet
          simp only [SmNode.leaves, addStrChild] at this ⊢
          split
          · exact this
          · rename_i hs
            rw [leavesList_append]
            intro l hl he
            rcases List.mem_append.1 hl with hl | hl
            · exact this l hl he
            · simp only [SmNode.leavesList, List.mem_cons, List.not_mem_nil, or_false] at hl
              subst hl
              simp at he
              simp [he] at hs
        · dsimp only
          rw [marks_addStr, placed_append, G.marks, G.own _ _ _ _ _ rfl]
          simp [placed, Function.comp_def]
    · rename_i j
      split at r
      · cases r
      · rename_i n hj
        split at r
        · cases r
        · rename_i hne
          cases r
          have Kn := F.kept _ (List.mem_of_getElem? hj)
          have F1 := F.set j (v := none) (d := none) (fun n hn => by cases hn) (fun n x hn => by cases hn)
          refine F1.set i (fun m hm => ?_) (fun m d hm hd => ?_)
          · cases hm
            exact ⟨trivial, .node a1 a2 a3 (NodesIn.append a4 (NodesIn.one Kn.within)),
              .node b1 (NodesLined.append b2 (NodesLined.one Kn.lined))⟩
          · cases hm
            obtain ⟨d', hd', hd⟩ := Option.bind_eq_some_iff.1 hd
            obtain ⟨b, hb, rfl⟩ := Option.map_eq_some_iff.1 hd
            have G := F.good i _ d' hi (join_some hd')
            have B := F.good j _ b hj (join_some hb)
            refine ⟨?_, ?_, ?_⟩
            · intro _ _ _ _ _ e
              cases e
              exact G.own _ _ _ _ _ rfl
            · have h1 := G.quiet
              simp only [SmNode.leaves] at h1 ⊢
              rw [leavesList_append, leaves_of_isNode Kn.isNode]
              intro l hl
              rcases List.mem_append.1 hl with hl | hl
              · exact h1 l hl
              · exact B.quiet l hl
            · dsimp only
              rw [marks_addNode _ _ _ _ _ Kn.isNode, placed_append, G.marks, B.marks]
      · cases r
  · cases r

theorem NFits.addItems {i : Nat} : ∀ {xs : List NItem} {w w' : NWorld} {ds : List (Option NDesc)}, NFits U w ds →
    w.addItems i xs = .ok w' → NFits U w' (xs.foldl (putInto i) ds)
  | [], w, w', ds, F, r => by cases r; exact F
  | x :: xs, w, w', ds, F, r => by
    simp only [NWorld.addItems, Except.bind_ok_iff] at r
    obtain ⟨w1, h1, h2⟩ := r
    have := NFits.addItems (F.addItem h1) h2
    exact this

/-! ## Statements -/

theorem render_within {w : World} (W : w.Within U) {n : SmNode} (h : n.In (dom U w.strs)) :
    World.Within U { w with maps := w.maps ++ [Emitted.new ⟨(n.toStringWithGenerator none none).1, none,
      some (n.toStringWithGenerator none none).2⟩ true] } :=
  W.pushMap ⟨fun wm m a b => (by cases a; cases b),
    fun wm g a b => (by cases a; cases b; exact toStringWithGenerator_in h none none),
    fun l e => (by cases e), fun l e => (by cases e), fun l e => (by cases e)⟩

theorem render_lined {w : World} (W : w.Lined) {n : SmNode} (h : n.Lined) :
    World.Lined { w with maps := w.maps ++ [Emitted.new ⟨(n.toStringWithGenerator none none).1, none,
      some (n.toStringWithGenerator none none).2⟩ true] } :=
  W.pushMap (fun wm g a b => by cases a; cases b; exact toStringWithGenerator_lined h none none)

theorem node_tells {n : SmNode} {r : StringWithSourceMap} (h : n.toStringWithSourceMap none none = .ok r)
    (f : JField) (t : StrTable JVal) : (Emitted.new ⟨(n.toStringWithGenerator none none).1, none,
      some (n.toStringWithGenerator none none).2⟩ true).Tells true r.source r.map f t := by
  obtain ⟨h1, g', h2⟩ := node_map h
  have := Tells.new (c := true) (wm := ⟨(n.toStringWithGenerator none none).1, none,
      some (n.toStringWithGenerator none none).2⟩) (m := r.map) (f := f) (t := t)
      ⟨⟨(n.toStringWithGenerator none none).1, some r.map, some g'⟩, by
        simp only [WasmMap.getMap, h2]⟩
  rw [h1] at this
  rw [h1]
  exact this

theorem render_shows {w : World} {n : SmNode} (hin : n.In (hasDom w.strs)) (hok : ∀ l ∈ n.leaves, LeafOk l) :
    ShowsPlaces { w with maps := w.maps ++ [Emitted.new ⟨(n.toStringWithGenerator none none).1, none,
      some (n.toStringWithGenerator none none).2⟩ true] } w.maps.length (placed w.strs n.marks) :=
  shows_of_tells (w := { w with maps := w.maps ++ [Emitted.new ⟨(n.toStringWithGenerator none none).1, none,
      some (n.toStringWithGenerator none none).2⟩ true] }) hin hok
    fun _ hr f => ⟨_, List.getElem?_concat_length, node_tells hr f _⟩

/-- What a statement supplies to the table. -/
def NOp.supply (f : JField) : NOp → List JVal
  | .js op => op.supply f
  | .newNode _ _ source _ => match f with
    | .sources => [truthy source]
    | _ => []
  | _ => []

theorem NFits.run {w w' : NWorld} {ds : List (Option NDesc)} (F : NFits U w ds) {op : NOp} {a : LAnswer}
    {given : Nat → Option PlacedMarks} (hU : ∀ f, ∀ v ∈ op.supply f, v ∈ U f) (hs : Spec.NOp.Sized op)
    (ha : Alone given w op) (r : op.run w = .ok (a, w')) : NFits U w' (describeNode given ds op) := by
  cases op with
  | js op =>
    simp only [NOp.run] at r
    split at r
    · cases r
    · rename_i h
      cases r
      have hw := JOp.run_within F.base (op := op) hU
      have hl := JOp.run_lined F.lined (op := op) hs
      rw [h] at hw hl
      exact F.rebase hw hl (JOp.run_grown h).ext
  | newNode line col source items =>
    simp only [NOp.run, Except.map_ok_iff] at r
    obtain ⟨w2, h1, h2⟩ := r
    cases h2
    simp only [describeNode]
    rw [F.length]
    refine NFits.addItems ?_ h1
    cases ht : truthy source with
    | none =>
      refine F.push ⟨trivial, .node .none .none (by simp) (by simp), .node PosIn.none (by simp)⟩ ?_
      intro x hx
      cases hx
      refine ⟨fun _ _ _ _ _ e => ?_, ?_, ?_⟩
      · cases e; simp [ownPlace, ht, originOf]
      · intro l hl; simp [SmNode.leaves, SmNode.leavesList] at hl
      · simp [SmNode.marks, SmNode.leaves, SmNode.leavesList, marked, placed]
    | some s =>
      obtain ⟨l1, l2, l3⟩ := hs (by simp [ht])
      have hi := F.base.intern (some s)
      have F1 := F.rebase hi.1 (F.lined.of rfl rfl) (World.intern_grown w.base (some s)).ext
      have hS : (dom U (w.base.intern (some s)).2.strs).S (w.base.intern (some s)).1 :=
        .inr (hi.2 _ (.inr (hU .sources (some s) (by simp [NOp.supply, ht]))))
      rw [Nat.mod_eq_of_lt l2, Nat.mod_eq_of_lt l3]
      refine F1.push ⟨trivial, .node (.some hS) .none (by simp) (by simp), .node ?_ (by simp)⟩ ?_
      · intro x hx
        cases hx
        exact ⟨l1, Nat.le_of_lt l2⟩
      · intro x hx
        cases hx
        refine ⟨fun _ _ _ _ _ e => ?_, ?_, ?_⟩
        · cases e
          have hname : (w.base.intern (some s)).2.strs.name (w.base.intern (some s)).1 = some s := by
            have := hi.2 (fun v => v = some s) rfl
            obtain ⟨h0, v, hv, rfl, -⟩ := this
            rw [StrTable.name, StrTable.at, if_neg (by omega), hv]
            rfl
          simp [ownPlace, ht, originOf, place, hname]
        · intro l hl; simp [SmNode.leaves, SmNode.leavesList] at hl
        · simp [SmNode.marks, SmNode.leaves, SmNode.leavesList, marked, placed]
  | node j c m =>
    have ha : ∀ g, given w.nodes.length = some g → _ := ha
    have r0 := r
    simp only [NOp.run] at r
    split at r
    · cases r
    · rename_i o ho
      split at r
      · cases r
      · split at r
        · cases r
        · rename_i n b hc
          cases r
          have hw := F.base.call (op := .node o.ptr c m) trivial
          have hl := F.lined.call (op := .node o.ptr c m) trivial
          rw [hc] at hw hl
          obtain ⟨w1, w2, w3, w4⟩ := hw
          obtain ⟨l1, l2, -⟩ := hl
          dsimp only at w1 w2 w3 w4 l1 l2
          have F1 := F.rebase w1 l1 (.of_eq w3)
          have hN : apiNode w.base.heap o.ptr c m = .ok (n, b.heap) := by
            simp only [World.call, Op.run] at hc
            cases hx : apiNode w.base.heap o.ptr c m with
            | error e => rw [hx] at hc; cases hc
            | ok p => rw [hx] at hc; cases hc; rfl
          have hk : NodeKept U b.strs n := ⟨hNode_isNode _ _ _ _ _ _ _ _ hN, by rw [w3]; exact w2, l2⟩
          simp only [describeNode]
          refine F1.push hk ?_
          intro x hx
          obtain ⟨g, hg, rfl⟩ := Option.map_eq_some_iff.1 hx
          rw [F.length] at hg
          obtain ⟨⟨v1, v2, k, hv1, hv2, hv3⟩, hq⟩ := ha g hg
          rw [r0] at hv1
          cases hv1
          have quiet := (hNode_quiet _ _ _ _ _ _ (.ref o.ptr) _ _ (clean_of_contains (hq o ho)) (Contains.self (i := o.ptr)) hN).1.2
          have hok : ∀ l ∈ n.leaves, LeafOk l := fun l hm o ho =>
            ⟨fun e => (by rw [quiet l hm e] at ho; cases ho), SmNode.Lined.leaves hk.lined l hm o ho⟩
          simp only [NOp.run, List.getElem?_concat_length] at hv2
          cases hv2
          refine ⟨?_, quiet, ?_⟩
          · intro pos src name cs ch e
            obtain ⟨_, _, e'⟩ := hNode_root _ _ _ _ _ _ _ _ hN
            rw [e'] at e
            cases e
            rfl
          · exact ShowsPlaces.unique hv3 (render_shows hk.has hok)
        · cases r
  | add i items =>
    simp only [NOp.run, Except.map_ok_iff] at r
    obtain ⟨w2, h1, h2⟩ := r
    cases h2
    exact F.addItems h1
  | render i =>
    simp only [NOp.run] at r
    split at r
    · cases r
    · cases r
    · rename_i n hn
      cases r
      have K := F.kept n (List.mem_of_getElem? hn)
      exact F.rebase (render_within F.base K.within) (render_lined F.lined K.lined) (.rfl' _)

theorem NFits.runFrom {given : Nat → Option PlacedMarks} : ∀ {ops : List NOp} {w w' : NWorld}
    {ds : List (Option NDesc)}, NFits U w ds → (∀ op ∈ ops, ∀ f, ∀ v ∈ op.supply f, v ∈ U f) →
    (∀ op ∈ ops, Spec.NOp.Sized op) → AllAlone given w ops → w.runFrom ops = .ok w' →
    NFits U w' (ops.foldl (describeNode given) ds)
  | [], w, w', ds, F, _, _, _, r => by cases r; exact F
  | op :: ops, w, w', ds, F, hU, hs, ha, r => by
    simp only [NWorld.runFrom] at r
    split at r
    · cases r
    · rename_i a w1 h1
      have F1 := F.run (hU op (by simp)) (hs op (by simp)) ha.1 h1
      have := NFits.runFrom (ops := ops) F1 (fun o ho => hU o (by simp [ho])) (fun o ho => hs o (by simp [ho]))
        (ha.2 _ _ h1) r
      exact this

theorem NFits.empty : NFits U NWorld.empty [] :=
  ⟨World.empty_within, World.empty_lined, fun n h => (by cases h), rfl, fun i n d h => (by simp [NWorld.empty] at h)⟩

/-! ## Later statements -/

theorem NWorld.addItem_base {w w' : NWorld} {i : Nat} {x : NItem} (r : w.addItem i x = .ok w') :
    w'.base = w.base := by
  unfold NWorld.addItem at r
  split at r
  · cases r
  · split at r
    · cases r; rfl
    · split at r
      · cases r
      · split at r
        · cases r
        · cases r; rfl
      · cases r
  · cases r

theorem NWorld.addItems_base {i : Nat} : ∀ {xs : List NItem} {w w' : NWorld}, w.addItems i xs = .ok w' →
    w'.base = w.base
  | [], w, w', r => by cases r; rfl
  | x :: xs, w, w', r => by
    simp only [NWorld.addItems, Except.bind_ok_iff] at r
    obtain ⟨w1, h1, h2⟩ := r
    rw [NWorld.addItems_base h2, NWorld.addItem_base h1]

theorem NOp.run_maps {w w' : NWorld} {op : NOp} {a : LAnswer} (r : op.run w = .ok (a, w'))
    (hj : ∀ j, op ≠ .js j) : w.base.strs.Grown w'.base.strs ∧ ∃ x, w'.base.maps = w.base.maps ++ x := by
  cases op with
  | js op => exact absurd rfl (hj op)
  | newNode line col source items =>
    simp only [NOp.run, Except.map_ok_iff] at r
    obtain ⟨w2, h1, h2⟩ := r
    cases h2
    rw [NWorld.addItems_base h1]
    cases truthy source with
    | none => exact ⟨.rfl' _, [], by simp⟩
    | some s => exact ⟨w.base.intern_grown _, [], by simp [World.intern]⟩
  | node j c m =>
    simp only [NOp.run] at r
    split at r
    · cases r
    · split at r
      · cases r
      · split at r
        · cases r
        · rename_i hc
          cases r
          exact ⟨.of_eq (World.call_strs hc).1, [], by simp [(World.call_strs hc).2]⟩
        · cases r
  | add i items =>
    simp only [NOp.run, Except.map_ok_iff] at r
    obtain ⟨w2, h1, h2⟩ := r
    cases h2
    rw [NWorld.addItems_base h1]
    exact ⟨.rfl' _, [], by simp⟩
  | render i =>
    simp only [NOp.run] at r
    split at r
    · cases r
    · cases r
    · cases r; exact ⟨.rfl' _, _, rfl⟩

theorem Lasting.runNodes {P : StrTable JVal → Emitted → Prop} (L : Lasting P) {k : Nat} :
    ∀ {ops : List NOp} {w w' : NWorld} {e : Emitted}, w.base.maps[k]? = some e → P w.base.strs e →
    (∀ op, .js op ∈ ops → ¬ op.gives k) → (∀ a, .js (.set k a) ∉ ops) → w.runFrom ops = .ok w' →
    ∃ e', w'.base.maps[k]? = some e' ∧ P w'.base.strs e'
  | [], w, w', e, hk, hp, _, _, r => by cases r; exact ⟨e, hk, hp⟩
  | op :: ops, w, w', e, hk, hp, hg, hs, r => by
    simp only [NWorld.runFrom] at r
    split at r
    · cases r
    rename_i w1 h1
    have step : ∃ e', w1.base.maps[k]? = some e' ∧ P w1.base.strs e' := by
      by_cases hj : ∃ j, op = .js j
      · obtain ⟨j, rfl⟩ := hj
        simp only [NOp.run] at h1
        split at h1
        · cases h1
        · rename_i h2
          cases h1
          exact L.run hk hp (fun h => absurd h (hg j (by simp)))
            (fun x hx => absurd (by simp [hx]) (hs x)) h2
      · obtain ⟨g, x, hx⟩ := NOp.run_maps h1 (fun j h => hj ⟨j, h⟩)
        exact ⟨e, by rw [hx]; exact getElem?_append_some hk, L.mono g.array hp⟩
    obtain ⟨e1, k1, p1⟩ := step
    exact Lasting.runNodes L (ops := ops) k1 p1 (fun o ho => hg o (by simp [ho]))
      (fun a ha => hs a (by simp [ha])) r

theorem World.Lasts.of_runNodes {more : List NOp} {w w' : NWorld} {k : Nat} (e : w.runFrom more = .ok w')
    (hg : ∀ op, .js op ∈ more → ¬ op.gives k) (hs : ∀ a, .js (.set k a) ∉ more) : World.Lasts k w.base w'.base :=
  fun _ L _ hk hp => L.runNodes hk hp hg hs e

/-- A node that was rendered, read later. -/
theorem NFits.render_shows {w : NWorld} {ds : List (Option NDesc)} (F : NFits U w ds) {i : Nat} {n : SmNode} {d : NDesc}
    (hn : w.nodes[i]? = some (some n)) (hd : ds[i]? = some (some d)) {w2 : World}
    (e2 : World.Lasts w.base.maps.length { w.base with maps := w.base.maps ++ [Emitted.new
      ⟨(n.toStringWithGenerator none none).1, none, some (n.toStringWithGenerator none none).2⟩ true] } w2) :
    ShowsPlaces w2 w.base.maps.length d.marks := by
  have good := F.good i n d hn hd
  have kept := F.kept n (List.mem_of_getElem? hn)
  have grown : ∃ x, w2.strs.array = w.base.strs.array ++ x := e2.array List.getElem?_concat_length
  rw [(good.mono grown kept).marks]
  exact shows_of_tells (kept.has.mono (hasDom_grow grown)) (good.leafOk kept.lined) fun r hr f =>
    e2 _ (Tells.lasting true _ _ f) _ List.getElem?_concat_length (node_tells hr f _)

/-! ## C59 -/

/-- The pair handed out by `toStringWithSourceMap()` of a node shows, whenever its properties are read
later, the characters put into the node and where they come from.

Missing: lines count from 1 and numbers fit `u32`; nothing is said of nodes with a part obtained from an
object with a `ReplaceSource` in it (both: `C59_not_general`). The pair is not given to `SourceMapSource`
and its properties are not assigned to. -/
theorem C59_partial (given : Nat → Option PlacedMarks) (ops more : List NOp) (w w1 w2 : NWorld) (i k : Nat)
    (d : NDesc) (r : NWorld.run ops = .ok w) (hs : ∀ op ∈ ops, Spec.NOp.Sized op)
    (ha : AllAlone given NWorld.empty ops) (hd : (nodeDescriptions given ops)[i]? = some (some d))
    (e : (NOp.render i).run w = .ok (.pair k, w1)) (e2 : w1.runFrom more = .ok w2)
    (hg : ∀ op, .js op ∈ more → ¬ op.gives k) (hset : ∀ a, .js (.set k a) ∉ more) :
    ShowsPlaces w2.base k d.marks := by
  have F := NFits.runFrom (U := fun f => ops.flatMap (NOp.supply f)) (given := given) NFits.empty
    (fun op ho f v hv => List.mem_flatMap.2 ⟨op, ho, hv⟩) hs ha r
  simp only [NOp.run] at e
  split at e
  · cases e
  · cases e
  · rename_i n hn
    cases e
    exact F.render_shows hn hd (.of_runNodes e2 hg hset)

/-- `node()` of an object followed by `toStringWithSourceMap()` does the same as `sourceAndMap()`. -/
theorem C59_object (w : NWorld) (j k : Nat) (m : Bool) (b : World) :
    (JOp.sourceAndMap j true m).run w.base = .ok (.pair k, b) ↔
    ∃ w1 w2, (NOp.node j true m).run w = .ok (.done, w1) ∧
      (NOp.render w.nodes.length).run w1 = .ok (.pair k, w2) ∧ w2.base = b := by
  simp only [JOp.run, World.emit, NOp.run]
  cases ho : w.base.objs[j]? with
  | none => simp
  | some o =>
    obtain ⟨ptr, kind⟩ := o
    cases kind with
    | raw v => simp
    | _ =>
      dsimp only
      rw [if_pos trivial]
      cases hc : w.base.call (.node ptr true m) with
      | error e => simp [Except.bind]
      | ok p =>
        obtain ⟨a, b'⟩ := p
        cases a with
        | node n =>
          have hm := (World.call_strs hc).2
          dsimp only [Except.bind]
          constructor
          · intro h
            cases h
            exact ⟨_, ⟨_, w.nodes ++ [some n]⟩, rfl, by simp only [List.getElem?_concat_length, hm], rfl⟩
          · rintro ⟨w1, w2, h1, h2, h3⟩
            cases h1
            simp only [List.getElem?_concat_length] at h2
            cases h2
            rw [← h3, hm]
        | _ => simp [Except.bind]

/-! ## Which statements throw -/

/-- Putting something into node `i`: both must not have been put into another node yet. -/
def Spec.putAlive (i : Nat) (L : List Bool) : NItem → Option (List Bool)
  | .str _ => if L[i]? = some true then some L else none
  | .node j => if L[i]? = some true ∧ L[j]? = some true ∧ j ≠ i then some (L.set j false) else none

/-- Which nodes can be used after a statement; `none`: it throws. -/
def Spec.aliveAfter (L : List Bool) : NOp → Option (List Bool)
  | .js _ => some L
  | .newNode _ _ _ items => items.foldlM (putAlive L.length) (L ++ [true])
  | .node _ _ _ => some (L ++ [true])
  | .add i items => items.foldlM (putAlive i) L
  | .render i => if L[i]? = some true then some L else none

/-- Which nodes are usable. -/
def alive (w : NWorld) : List Bool := w.nodes.map Option.isSome

def AllNodes (w : NWorld) : Prop := ∀ n, some n ∈ w.nodes → n.IsNode

theorem alive_some {w : NWorld} {i : Nat} (N : AllNodes w) : (alive w)[i]? = some true ↔
    ∃ pos src name cs ch, w.nodes[i]? = some (some (.node pos src name cs ch)) := by
  simp only [alive, List.getElem?_map]
  cases h : w.nodes[i]? with
  | none => simp
  | some o =>
    cases o with
    | none => simp
    | some n =>
      cases n with
      | str s => exact absurd (N _ (List.mem_of_getElem? h)) (fun h => h)
      | node => simp

theorem map_set {α β : Type} (f : α → β) (l : List α) (i : Nat) (a : α) :
    (l.set i a).map f = (l.map f).set i (f a) := List.map_set ..

theorem addItem_alive {w : NWorld} (N : AllNodes w) (i : Nat) (x : NItem) :
    match w.addItem i x with
    | .ok w' => AllNodes w' ∧ putAlive i (alive w) x = some (alive w')
    | .error _ => putAlive i (alive w) x = none := by
  by_cases h : (alive w)[i]? = some true
  · obtain ⟨pos, src, name, cs, ch, hn⟩ := (alive_some N).1 h
    have idem : (alive w).set i true = alive w := by
      apply List.ext_getElem?
      intro k
      rw [List.getElem?_set]
      split
      · rename_i hk
        subst hk
        rw [h]
        split
        · rfl
        · rename_i hlt
          rw [List.getElem?_eq_none (Nat.le_of_not_lt hlt)] at h
          cases h
      · rfl
    unfold NWorld.addItem
    rw [hn]
    cases x with
    | str s =>
      refine ⟨fun n hm => ?_, ?_⟩
      · rcases List.mem_or_eq_of_mem_set hm with hm | hm
        · exact N n hm
        · cases hm; trivial
      · simp only [putAlive, if_pos h]
        simp only [alive, map_set]
        exact (congrArg some idem).symm
    | node j =>
      dsimp only
      cases hj : w.nodes[j]? with
      | none =>
        simp only [putAlive]
        rw [if_neg]
        rintro ⟨-, h2, -⟩
        simp [alive, hj] at h2
      | some o =>
        cases o with
        | none =>
          simp only [putAlive]
          rw [if_neg]
          rintro ⟨-, h2, -⟩
          simp [alive, hj] at h2
        | some n =>
          have hj' : (alive w)[j]? = some true := by simp [alive, hj]
          dsimp only
          by_cases hji : j = i
          · rw [if_pos hji]
            simp only [putAlive]
            rw [if_neg (fun h => h.2.2 hji)]
          · rw [if_neg hji]
            refine ⟨fun n hm => ?_, ?_⟩
            · rcases List.mem_or_eq_of_mem_set hm with hm | hm
              · rcases List.mem_or_eq_of_mem_set hm with hm | hm
                · exact N n hm
                · cases hm
              · cases hm; trivial
            · simp only [putAlive, if_pos (⟨h, hj', hji⟩ : _ ∧ _ ∧ _)]
              simp only [alive, map_set]
              rw [List.set_comm _ _ hji]
              exact congrArg (fun l => some (l.set j false)) idem.symm
  · have h0 : putAlive i (alive w) x = none := by
      cases x with
      | str s => simp only [putAlive, if_neg h]
      | node j => simp only [putAlive]; rw [if_neg (fun g => h g.1)]
    cases hr : w.addItem i x with
    | error e => exact h0
    | ok w' =>
      exfalso
      apply h
      unfold NWorld.addItem at hr
      split at hr
      · cases hr
      · rename_i hn; exact (alive_some N).2 ⟨_, _, _, _, _, hn⟩
      · cases hr

theorem addItems_alive {i : Nat} : ∀ (xs : List NItem) {w : NWorld}, AllNodes w →
    match w.addItems i xs with
    | .ok w' => AllNodes w' ∧ xs.foldlM (putAlive i) (alive w) = some (alive w')
    | .error _ => xs.foldlM (putAlive i) (alive w) = none
  | [], w, N => ⟨N, rfl⟩
  | x :: xs, w, N => by
    have h1 := addItem_alive N i x
    simp only [NWorld.addItems, List.foldlM_cons]
    cases hx : w.addItem i x with
    | error e => rw [hx] at h1; simp only [Except.bind]; rw [h1]; rfl
    | ok w1 =>
      rw [hx] at h1
      rw [h1.2]
      exact addItems_alive xs h1.1

theorem NOp.run_alive {w : NWorld} (N : AllNodes w) (op : NOp) :
    match op.run w with
    | .ok (_, w') => AllNodes w' ∧ aliveAfter (alive w) op = some (alive w')
    | .error _ => (∀ j, op ≠ .js j) → (∀ j c m, op ≠ .node j c m) → aliveAfter (alive w) op = none := by
  cases op with
  | js op =>
    simp only [NOp.run]
    cases op.run w.base with
    | error e => exact fun h _ => absurd rfl (h op)
    | ok p => exact ⟨N, rfl⟩
  | newNode line col source items =>
    have key : ∀ p : Option (Nat × Nat) × Option Int × World,
        match ((NWorld.mk p.2.2 (w.nodes ++ [some (.node p.1 p.2.1 none [] [])])).addItems w.nodes.length
          items).map fun w => (LAnswer.done, w) with
        | .ok (_, w') => AllNodes w' ∧ aliveAfter (alive w) (.newNode line col source items) = some (alive w')
        | .error _ => (∀ j, NOp.newNode line col source items ≠ .js j) →
          (∀ j c m, NOp.newNode line col source items ≠ .node j c m) →
          aliveAfter (alive w) (.newNode line col source items) = none := by
      intro p
      have := addItems_alive (i := w.nodes.length) items
        (w := ⟨p.2.2, w.nodes ++ [some (.node p.1 p.2.1 none [] [])]⟩) (fun n hn => by
          rcases List.mem_append.1 hn with hn | hn
          · exact N n hn
          · cases List.mem_singleton.1 hn; trivial)
      have ha : alive ⟨p.2.2, w.nodes ++ [some (.node p.1 p.2.1 none [] [])]⟩ = alive w ++ [true] := by
        simp [alive]
      have hl : (alive w).length = w.nodes.length := by simp [alive]
      simp only [aliveAfter]
      rw [ha] at this
      rw [hl]
      revert this
      cases NWorld.addItems _ w.nodes.length items with
      | error e => exact fun h _ _ => h
      | ok w' => exact id
    exact key _
  | node j c m =>
    cases hr : (NOp.node j c m).run w with
    | error e => exact fun _ h => absurd rfl (h j c m)
    | ok p =>
      obtain ⟨a, w'⟩ := p
      simp only [NOp.run] at hr
      split at hr
      · cases hr
      · split at hr
        · cases hr
        · split at hr
          · cases hr
          · rename_i n b hc
            cases hr
            refine ⟨fun x hx => ?_, by simp [aliveAfter, alive]⟩
            rcases List.mem_append.1 hx with hx | hx
            · exact N x hx
            · cases List.mem_singleton.1 hx
              simp only [World.call, Op.run] at hc
              cases hn : apiNode w.base.heap _ c m with
              | error e => rw [hn] at hc; cases hc
              | ok p =>
                rw [hn] at hc
                cases hc
                exact hNode_isNode _ _ _ _ _ _ _ _ hn
          · cases hr
  | add i items =>
    have := addItems_alive (i := i) items N
    simp only [NOp.run, aliveAfter]
    revert this
    cases w.addItems i items with
    | error e => exact fun h _ _ => h
    | ok w' => exact id
  | render i =>
    simp only [NOp.run, aliveAfter]
    cases hi : w.nodes[i]? with
    | none => intro _ _; rw [if_neg]; simp [alive, hi]
    | some o =>
      cases o with
      | none => intro _ _; rw [if_neg]; simp [alive, hi]
      | some n => exact ⟨N, by rw [if_pos (by simp [alive, hi])]; rfl⟩

/-- After a program that returned, which statements of the nodes return can be told from its text. -/
theorem C59_returns (ops : List NOp) (w : NWorld) (r : NWorld.run ops = .ok w) :
    ∃ L, ops.foldlM aliveAfter [] = some L ∧
      ∀ op, (∀ j, op ≠ .js j) → (∀ j c m, op ≠ .node j c m) →
        ((∃ a w', op.run w = .ok (a, w')) ↔ aliveAfter L op ≠ none) := by
  have key : ∀ (ops : List NOp) (w w' : NWorld), AllNodes w → w.runFrom ops = .ok w' →
      AllNodes w' ∧ ops.foldlM aliveAfter (alive w) = some (alive w') := by
    intro ops
    induction ops with
    | nil => intro w w' N r; cases r; exact ⟨N, rfl⟩
    | cons op ops ih =>
      intro w w' N r
      simp only [NWorld.runFrom] at r
      split at r
      · cases r
      · rename_i a w1 h1
        have := NOp.run_alive N op
        rw [h1] at this
        rw [List.foldlM_cons, this.2]
        exact ih w1 w' this.1 r
  obtain ⟨N, h⟩ := key ops _ _ (fun n hn => by cases hn) r
  refine ⟨alive w, h, fun op h1 h2 => ?_⟩
  have := NOp.run_alive N op
  cases hr : op.run w with
  | error e =>
    rw [hr] at this
    simp [this h1 h2]
  | ok p =>
    rw [hr] at this
    exact ⟨fun _ => by rw [this.2]; simp, fun _ => ⟨_, _, rfl⟩⟩

/-! ## Without the conditions -/

/-- What a property reads as. -/
def readField (w : World) (k : Nat) (f : JField) : Option JFieldVal :=
  match (JOp.get k f).run w with
  | .ok (.field v, _) => some v
  | _ => none

/-- The text of a rendered node, and what its map says of the positions; `none` inside: not readable. -/
def renderedNode (ops : List NOp) (i : Nat) (at_ : List (Nat × Nat)) :
    Option (Option JFieldVal × Option (List (Option (Option JVal × Nat × Nat)))) :=
  match NWorld.run (ops ++ [.render i]) with
  | .error _ => none
  | .ok w =>
    let k := w.base.maps.length - 1
    some (readField w.base k .source, match readField w.base k .sources, readField w.base k .names,
        readField w.base k .mappings with
      | some (.list l), some (.list ns), some (.text s) =>
        (points (idTable l.length) (idTable ns.length) s).map fun ps => at_.map fun p =>
          (lookup ps p.1 p.2).map fun o => (l[o.source.toNat]?, o.line, o.col)
      | _, _, _ => none)

set_option synthInstance.maxSize 1000 in
/-- Without the conditions the claim is false. Lines that count from 0 do not fit; a node whose text was
removed by a `ReplaceSource` still begins a stretch, although no character is in it. -/
theorem C59_not_general :
    renderedNode [.newNode 0 0 (some "f.js".toList) [.str "a".toList]] 0 [(1, 0)] =
      some (some (.text "a".toList), none) ∧
    renderedNode [.js (.newOriginal "a".toList "z.js".toList), .js (.newReplace (.obj 0)),
        .js (.replace 1 0 0 []), .node 1 true false, .newNode 5 0 (some "b.js".toList) [.str "x".toList],
        .newNode 1 0 none [.node 1, .node 0, .str "b".toList]] 2 [(1, 0), (1, 1)] =
      some (some (.text "xb".toList), some [some (some (some "b.js".toList), 5, 0),
        some (some (some "z.js".toList), 1, 0)]) :=
  ⟨by decide +kernel, by decide +kernel⟩

/-! Non-trivial case: nested nodes and a node of an object in between. -/

/-- A program with nodes in nodes. -/
def c59Program : List NOp :=
  [.newNode 1 0 none [.str "// é\n".toList], .js (.newOriginal "a;b\nc".toList "a.js".toList),
   .node 0 true false, .newNode 7 4 (some "b.js".toList) [.str "x".toList, .node 1, .str "y\n".toList],
   .add 0 [.node 2, .str "z".toList]]

/-- A stretch of characters with the same place. -/
def allAt (s : String) (p : Option Place) : PlacedMarks := s.toList.map fun c => (c, p)

def fromA (l c : Nat) : Option Place := some ⟨some "a.js".toList, l, c, none⟩

/-- What the node of the object shows. -/
def c59Given (i : Nat) : Option PlacedMarks :=
  if i = 1 then some (allAt "a;" (fromA 1 0) ++ allAt "b\n" (fromA 1 2) ++ allAt "c" (fromA 2 0)) else none

def c59Marks : PlacedMarks :=
  allAt "// é\n" none ++ allAt "x" (some ⟨some "b.js".toList, 7, 4, none⟩) ++
  (allAt "a;" (fromA 1 0) ++ allAt "b\n" (fromA 1 2) ++ allAt "c" (fromA 2 0)) ++
  allAt "y\n" (some ⟨some "b.js".toList, 7, 4, none⟩) ++ allAt "z" none

example : nodeDescriptions c59Given c59Program = [some ⟨none, c59Marks⟩, none, none] := by decide +kernel
set_option synthInstance.maxSize 1000 in
example : renderedNode c59Program 0 [(1, 0), (2, 0), (2, 1), (2, 3), (3, 0), (3, 1), (4, 0)] =
    some (some (.text "// é\nxa;b\ncy\nz".toList), some
      [none, some (some (some "b.js".toList), 7, 4), some (some (some "a.js".toList), 1, 0),
       some (some (some "a.js".toList), 1, 2), some (some (some "a.js".toList), 2, 0),
       some (some (some "b.js".toList), 7, 4), none]) := by decide +kernel
example : c59Program.foldlM aliveAfter [] = some [true, false, false] := by decide +kernel
example : aliveAfter [true, false, false] (.add 0 [.node 2]) = none ∧
    aliveAfter [true, false, false] (.add 0 [.node 0]) = none ∧
    aliveAfter [true, false, false] (.render 2) = none := by decide +kernel
example : ∀ op ∈ c59Program, Spec.NOp.Sized op := by
  simp only [c59Program, List.forall_mem_cons, Spec.NOp.Sized, Spec.JOp.FewLines]
  exact ⟨by decide, by unfold Spec.FewLines; decide +kernel, trivial, by decide, trivial, by simp⟩

set_option synthInstance.maxSize 1000 in
/-- Checks `ShowsPlaces`. -/
def checkShows (w : World) (k : Nat) (m : PlacedMarks) : Bool :=
  readField w k .source == some (.text (m.map Prod.fst)) &&
  match readField w k .sources, readField w k .names, readField w k .mappings with
  | some (.list l), some (.list ns), some (.text s) =>
    match points (idTable l.length) (idTable ns.length) s with
    | some ps => (List.range m.length).all fun i => match m[i]? with
      | none => false
      | some (_, o) => decide ((lookup ps (posAfter ((m.take i).map Prod.fst)).1
            (posAfter ((m.take i).map Prod.fst)).2).map
          (fun x => (l[x.source.toNat]?, x.line, x.col, x.name.map fun n => ns[n.toNat]?)) =
        o.map fun p => (some p.file, p.line, p.col, p.name.map some))
    | none => false
  | _, _, _ => false

theorem readField_reads {w : World} {k : Nat} {f : JField} {v : JFieldVal} (h : readField w k f = some v) :
    Reads w k f v := by
  unfold readField at h
  split at h
  · rename_i e; cases h; exact ⟨_, e⟩
  · cases h

set_option synthInstance.maxSize 1000 in
theorem checkShows_shows {w : World} {k : Nat} {m : PlacedMarks} (h : checkShows w k m = true) :
    ShowsPlaces w k m := by
  simp only [checkShows, Bool.and_eq_true, beq_iff_eq] at h
  obtain ⟨h1, h⟩ := h
  refine ⟨readField_reads h1, ?_⟩
  split at h
  · rename_i l ns s h2 h3 h4
    split at h
    · rename_i ps h5
      refine ⟨l, ns, s, ps, readField_reads h2, readField_reads h3, readField_reads h4, h5, ?_⟩
      intro i c o hi
      have hlt : i < m.length := (List.getElem?_eq_some_iff.1 hi).1
      have := List.all_eq_true.1 h i (List.mem_range.2 hlt)
      rw [hi] at this
      exact of_decide_eq_true this
    · cases h
  · cases h

/-- Checks `AllAlone`. -/
def checkAlone (given : Nat → Option PlacedMarks) (w : NWorld) (op : NOp) : Bool :=
  match op with
  | .node j c m => match given w.nodes.length with
    | none => true
    | some g =>
      (match (NOp.node j c m).run w with
      | .ok (.done, w1) => match (NOp.render w.nodes.length).run w1 with
        | .ok (.pair k, w2) => checkShows w2.base k g
        | _ => false
      | _ => false) &&
      w.base.heap.all fun o => match o with
        | .replace .. => false
        | _ => true
  | _ => true

def checkAllAlone (given : Nat → Option PlacedMarks) : NWorld → List NOp → Bool
  | _, [] => true
  | w, op :: ops => checkAlone given w op && match op.run w with
    | .ok (_, w') => checkAllAlone given w' ops
    | .error _ => true

theorem checkAllAlone_alone {given : Nat → Option PlacedMarks} : ∀ {ops : List NOp} {w : NWorld},
    checkAllAlone given w ops = true → AllAlone given w ops
  | [], _, _ => trivial
  | op :: ops, w, h => by
    simp only [checkAllAlone, Bool.and_eq_true] at h
    obtain ⟨h1, h2⟩ := h
    refine ⟨?_, fun a w' hr => ?_⟩
    · unfold checkAlone at h1
      split at h1
      · rename_i j c m
        intro g hg
        rw [hg] at h1
        simp only [Bool.and_eq_true] at h1
        obtain ⟨h3, h4⟩ := h1
        constructor
        · split at h3
          · rename_i w1 e1
            split at h3
            · rename_i k w2 e2
              exact ⟨w1, w2, k, e1, e2, checkShows_shows h3⟩
            · cases h3
          · cases h3
        · intro o _ i _ c rs b hi
          have := List.all_eq_true.1 h4 _ (List.mem_of_getElem? hi)
          cases this
      · rename_i hne
        cases op with
        | node j c m => exact absurd rfl (hne j c m)
        | _ => trivial
    · rw [hr] at h2
      exact checkAllAlone_alone h2

example : AllAlone c59Given NWorld.empty c59Program := checkAllAlone_alone (by decide +kernel)

end WS
