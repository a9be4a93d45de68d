import Verif.Proofs.Within
import Verif.Props.C28
import Verif.Spec.Node
/-! # Which contents go with which sources

A relation between indices of sources and indices of contents: what is computed from things in which
every source has a content related to it is such a thing again, with the exception of a replacement on
the level of columns. -/

namespace WS

variable {P : Int → Int → Prop}

/-- Every source has a content, and contents belong to their sources. -/
structure Cover {α : Type} (P : α → α → Prop) (ss cs : List α) : Prop where
  enough : ss.length ≤ cs.length
  pairs : ∀ p ∈ ss.zip cs, P p.1 p.2

theorem Cover.get {α : Type} {P : α → α → Prop} {ss cs : List α} (h : Cover P ss cs) {i : Nat} {s : α}
    (e : ss[i]? = some s) : ∃ c, cs[i]? = some c ∧ P s c := by
  have hi := (List.getElem?_eq_some_iff.1 e).1
  have hl := h.enough
  refine ⟨cs[i], List.getElem?_eq_getElem (by omega), ?_⟩
  refine h.pairs (s, cs[i]) (List.mem_iff_getElem?.2 ⟨i, ?_⟩)
  rw [List.getElem?_zip_eq_some]
  exact ⟨e, List.getElem?_eq_getElem (by omega)⟩

/-! ## Generators -/

/-- There is a content for the source. -/
def Generator.Has (g : Generator) (s : Int) : Prop := s ∈ g.contents.map Prod.fst

/-- The sources with a content. -/
def Generator.Kept (g : Generator) : Dom := ⟨g.Has, fun _ => True, fun _ => True⟩

structure Generator.Cov (P : Int → Int → Prop) (g : Generator) : Prop where
  pairs : ∀ p ∈ g.contents, P p.1 p.2
  listed : g.In g.Kept

theorem Generator.In.weaken {D E : Dom} {g : Generator} (h : g.In D) (hS : ∀ s, D.S s → E.S s)
    (hC : ∀ s, E.C s) (hN : ∀ s, E.N s) : g.In E :=
  ⟨fun m hm => ⟨fun s e => hS _ ((h.maps m hm).source s e), fun _ _ => hN _⟩,
    fun p hp => hS _ (h.sources p hp), fun _ _ => hN _, fun _ _ => hC _⟩

theorem Generator.Cov.into {g : Generator} (h : g.Cov P) {D : Dom} (hS : ∀ s, g.Has s → D.S s)
    (hC : ∀ s, D.C s) (hN : ∀ s, D.N s) : g.In D := h.listed.weaken hS hC hN

theorem Generator.Cov.setSourceContent {g : Generator} (h : g.Cov P) {s c : Int} (hp : P s c) :
    (g.setSourceContent s (some c)).Cov P := by
  have hk : ∀ x, (g.setSourceContent s (some c)).Has x ↔ g.Has x ∨ x = s := fun x => mem_insert
  refine ⟨fun p hm => ?_, ?_⟩
  · rcases amOrInsert_mem hm with hm | rfl
    · exact h.pairs p hm
    · exact hp
  · exact (h.into (fun x hx => (hk x).2 (.inl hx)) (fun _ => trivial) fun _ => trivial).setSourceContent
      (.some trivial)

theorem Generator.Cov.sort {g : Generator} (h : g.Cov P) :
    ({ g with mappings := g.mappings.sort } : Generator).Cov P := ⟨h.pairs, h.listed.sort⟩

theorem setContents_mem {cs : List (Int × Int)} : ∀ {g : Generator} {p : Int × Int},
    p ∈ (cs.foldl (fun g p => g.setSourceContent p.1 (some p.2)) g).contents →
    p ∈ g.contents ∨ p ∈ cs := by
  induction cs with
  | nil => intro g p h; exact .inl h
  | cons c cs ih =>
    intro g p h
    rcases ih h with h | h
    · rcases amOrInsert_mem h with h | rfl
      · exact .inl h
      · exact .inr (List.mem_cons_self ..)
    · exact .inr (List.mem_cons_of_mem _ h)

theorem setContents_has {cs : List (Int × Int)} : ∀ {g : Generator} {s : Int},
    (cs.foldl (fun g p => g.setSourceContent p.1 (some p.2)) g).Has s ↔
    g.Has s ∨ s ∈ cs.map Prod.fst := by
  induction cs with
  | nil => intro g s; simp
  | cons c cs ih =>
    intro g s
    have : (g.setSourceContent c.1 (some c.2)).Has s ↔ g.Has s ∨ s = c.1 := mem_insert
    rw [List.foldl_cons, ih, this, List.map_cons, List.mem_cons, or_assoc]

theorem registerSources_mem {b : Bool} : ∀ {ss cs : List Int} {g : Generator} {p : Int × Int},
    p ∈ (registerSources b g ss cs).contents → p ∈ g.contents ∨ p ∈ ss.zip cs
  | [], _, _, _, h => .inl h
  | s :: ss, [], g, p, h => by
    simp only [registerSources] at h
    rcases registerSources_mem h with h | h
    · refine .inl ?_
      simp only [Generator.setSourceContent, List.head?_nil, amRemove] at h
      split at h <;> exact (List.mem_filter.1 h).1
    · simp at h
  | s :: ss, c :: cs, g, p, h => by
    simp only [registerSources] at h
    rcases registerSources_mem h with h | h
    · simp only [Generator.setSourceContent, List.head?_cons] at h
      rcases amOrInsert_mem h with h | rfl
      · refine .inl ?_
        split at h <;> exact h
      · exact .inr (by simp)
    · exact .inr (List.mem_cons_of_mem _ h)

theorem registerSources_has {b : Bool} : ∀ {ss cs : List Int} {g : Generator} {x : Int},
    ss.length ≤ cs.length → (g.Has x ∨ x ∈ ss) → (registerSources b g ss cs).Has x
  | [], _, _, _, _, h => h.elim id (fun h => by cases h)
  | s :: ss, [], _, _, hl, _ => by simp at hl
  | s :: ss, c :: cs, g, x, hl, h => by
    simp only [registerSources]
    refine registerSources_has (by simpa using hl) ?_
    have : ((if b then g.addSource s else g).setSourceContent s (some c)).Has x ↔
        (if b then g.addSource s else g).Has x ∨ x = s := mem_insert
    rcases h with h | h
    · refine .inl (this.2 (.inl ?_))
      split <;> exact h
    · rcases List.mem_cons.1 h with rfl | h
      · exact .inl (this.2 (.inr rfl))
      · exact .inr h

theorem addParsed_contents {ss ns : List Int} : ∀ {ps : List Parsed} {g g' : Generator},
    addParsed ss ns g ps = .ok g' → g'.contents = g.contents
  | [], _, _, e => by cases e; rfl
  | p :: ps, g, g', e => by
    simp only [addParsed] at e
    split at e
    · cases e
    · rw [addParsed_contents e, addMapping_contents]

theorem fromSourceMap_cov {ss cs ns : List Int} {mp : Str} {file : Option Int} {root : Option Str}
    {b : Bool} {g : Generator} (h : Cover P ss cs)
    (e : Generator.fromSourceMap ss cs mp ns file root b = .ok g) : g.Cov P := by
  have hc : g.contents = (registerSources b (Generator.new file root true) ss cs).contents := by
    simp only [Generator.fromSourceMap] at e
    split at e
    · cases e
    · exact addParsed_contents e
  refine ⟨fun p hp => ?_, fromSourceMap_in (fun s hs => ?_) (fun _ _ => trivial) (fun _ _ => trivial) e⟩
  · rw [hc] at hp
    rcases registerSources_mem hp with hp | hp
    · simp [Generator.new] at hp
    · exact h.pairs p hp
  · have := registerSources_has (b := b) (g := Generator.new file root true) h.enough (.inr hs)
    simp only [Generator.Kept, Generator.Has, hc] at this ⊢
    exact this

theorem lookups_cover {cs : List (Int × Int)} (hp : ∀ p ∈ cs, P p.1 p.2) :
    ∀ {l : List (Int × Nat)}, (∀ p ∈ l, p.1 ∈ cs.map Prod.fst) →
    (l.map Prod.fst).length = (l.filterMap fun p => cs.lookup p.1).length ∧
    ∀ p ∈ (l.map Prod.fst).zip (l.filterMap fun p => cs.lookup p.1), P p.1 p.2
  | [], _ => ⟨rfl, by simp⟩
  | q :: l, h => by
    have ih := lookups_cover hp (fun p hm => h p (List.mem_cons_of_mem _ hm))
    have hq := lookup_isSome.2 (h q (List.mem_cons_self ..))
    obtain ⟨c, hc⟩ := Option.isSome_iff_exists.1 hq
    rw [List.filterMap_cons_some (f := fun p : Int × Nat => cs.lookup p.1) hc]
    refine ⟨by simpa using ih.1, fun p hm => ?_⟩
    rcases List.mem_cons.1 hm with rfl | hm
    · exact hp (q.1, c) (lookup_pair_mem hc)
    · exact ih.2 p hm

/-- The emitted lists line up. -/
theorem Generator.Cov.toSourceMap {g g' : Generator} (h : g.Cov P) {m : SourceMap}
    (e : g.toSourceMap = .ok (m, g')) :
    m.sources.length = m.sourcesContent.length ∧ Cover P m.sources m.sourcesContent ∧ g'.Cov P := by
  simp only [Generator.toSourceMap, Generator.serializeMappings] at e
  split at e
  · cases e
  · rename_i s g1 e1
    split at e1
    · cases e1; cases e
      have := lookups_cover h.pairs h.listed.sources
      exact ⟨this.1, ⟨Nat.le_of_eq this.1, this.2⟩, h.sort⟩
    · cases e1

theorem applyLoop_inner {D : Dom} {file : Option Int} : ∀ {l : List Mapping} {inner : Generator},
    inner.In D → (applyLoop file inner l).2.In D ∧
      (applyLoop file inner l).2.contents = inner.contents
  | [], _, h => ⟨h, rfl⟩
  | m :: l, inner, h => by
    have h1 : (applyOne file inner m).2.In D ∧ (applyOne file inner m).2.contents = inner.contents := by
      simp only [applyOne]
      split
      · exact ⟨h, rfl⟩
      · split
        · split <;> exact ⟨h.sort, rfl⟩
        · exact ⟨h, rfl⟩
    have h2 := applyLoop_inner (file := file) (l := l) h1.1
    simp only [applyLoop]
    exact ⟨h2.1, h2.2.trans h1.2⟩

theorem Generator.Cov.applySourceMap {g g' inner inner' : Generator} {f : Option Int} (h : g.Cov P)
    (hi : inner.Cov P) (e : g.applySourceMap inner f = .ok (g', inner')) :
    g'.Cov P ∧ inner'.Cov P := by
  have key : (∀ p, p ∈ g'.contents → p ∈ g.contents ∨ p ∈ inner.contents) ∧
      (∀ s, g'.Has s ↔ g.Has s ∨ inner.Has s) ∧ inner'.contents = inner.contents ∧
      inner'.In inner.Kept := by
    simp only [Generator.applySourceMap] at e
    split at e
    · cases e
    · rename_i file _
      have hl := applyLoop_inner (file := some file) (l := g.mappings.setUnsorted.list) hi.listed
      generalize applyLoop (some file) inner g.mappings.setUnsorted.list = r at e hl
      obtain ⟨list, in'⟩ := r
      dsimp only at e hl
      cases e
      refine ⟨fun p hp => ?_, fun s => ?_, hl.2, hl.1⟩
      · rw [← hl.2]
        have := setContents_mem hp
        rwa [foldl_addName_contents, foldl_addSource_contents] at this
      · rw [setContents_has, Generator.Has, foldl_addName_contents, foldl_addSource_contents, hl.2]
        exact Iff.rfl
  obtain ⟨k1, k2, k3, k4⟩ := key
  refine ⟨⟨fun p hp => (k1 p hp).elim (h.pairs p) (hi.pairs p), ?_⟩, ?_, ?_⟩
  · exact (Generator.In.applySourceMap (h.into (D := g'.Kept) (fun s hs => (k2 s).2 (.inl hs))
      (fun _ => trivial) fun _ => trivial) (hi.into (D := g'.Kept) (fun s hs => (k2 s).2 (.inr hs))
      (fun _ => trivial) fun _ => trivial) e).1
  · rw [k3]; exact hi.pairs
  · exact k4.weaken (fun s hs => by simpa [Generator.Kept, Generator.Has, k3] using hs)
      (fun _ => trivial) fun _ => trivial

/-! ## Nodes -/

mutual
  /-- The sources in a tree. -/
  def SmNode.srcs : SmNode → List Int
    | .str _ => []
    | .node _ src _ _ ch => src.toList ++ SmNode.srcsList ch
  /-- See `SmNode.srcs`. -/
  def SmNode.srcsList : List SmNode → List Int
    | [] => []
    | c :: cs => SmNode.srcs c ++ SmNode.srcsList cs
end

structure SmNode.Cov (P : Int → Int → Prop) (n : SmNode) : Prop where
  pairs : ∀ p ∈ n.cts, P p.1 p.2
  listed : ∀ s ∈ n.srcs, s ∈ n.cts.map Prod.fst

theorem SmNode.ctsList_mem {p : Int × Int} : ∀ {l : List SmNode},
    p ∈ SmNode.ctsList l ↔ ∃ c ∈ l, p ∈ c.cts
  | [] => by simp [SmNode.ctsList]
  | c :: cs => by simp [SmNode.ctsList, SmNode.ctsList_mem]

theorem SmNode.srcsList_mem {p : Int} : ∀ {l : List SmNode},
    p ∈ SmNode.srcsList l ↔ ∃ c ∈ l, p ∈ c.srcs
  | [] => by simp [SmNode.srcsList]
  | c :: cs => by simp [SmNode.srcsList, SmNode.srcsList_mem]

theorem SmNode.str_cov (s : Str) : (SmNode.str s).Cov P :=
  ⟨by simp [SmNode.cts], by simp [SmNode.srcs]⟩

theorem mkVec_cov {v : List SmNode} (h : ∀ c ∈ v, c.Cov P) :
    (SmNode.mkVec none none none v).Cov P := by
  refine ⟨fun p hp => ?_, fun s hs => ?_⟩
  · simp only [SmNode.mkVec, SmNode.cts, List.append_nil] at hp
    obtain ⟨c, hc, hp⟩ := SmNode.ctsList_mem.1 hp
    exact (h c hc).pairs p hp
  · simp only [SmNode.mkVec, SmNode.srcs, Option.toList_none, List.nil_append] at hs
    obtain ⟨c, hc, hs⟩ := SmNode.srcsList_mem.1 hs
    obtain ⟨p, hp, rfl⟩ := List.mem_map.1 ((h c hc).listed s hs)
    refine List.mem_map.2 ⟨p, ?_, rfl⟩
    simp only [SmNode.mkVec, SmNode.cts, List.append_nil]
    exact SmNode.ctsList_mem.2 ⟨c, hc, hp⟩

theorem SmNode.In.srcs {D : Dom} : ∀ {n : SmNode}, n.In D → ∀ s ∈ n.srcs, D.S s := by
  intro n h
  induction h with
  | str s => simp [SmNode.srcs]
  | node h1 h2 h3 h4 ih =>
    intro s hs
    simp only [SmNode.srcs, List.mem_append, Option.mem_toList] at hs
    rcases hs with hs | hs
    · exact h1 s hs
    · obtain ⟨c, hc, hs⟩ := SmNode.srcsList_mem.1 hs
      exact ih c hc s hs

theorem SmNode.In.cts {D : Dom} : ∀ {n : SmNode}, n.In D → ∀ p ∈ n.cts, D.C p.2 := by
  intro n h
  induction h with
  | str s => simp [SmNode.cts]
  | node h1 h2 h3 h4 ih =>
    intro s hs
    simp only [SmNode.cts, List.mem_append] at hs
    rcases hs with hs | hs
    · obtain ⟨c, hc, hs⟩ := SmNode.ctsList_mem.1 hs
      exact ih c hc s hs
    · exact h3 s hs

mutual
  theorem SmNode.in_of {D : Dom} (hC : ∀ s, D.C s) (hN : ∀ s, D.N s) : ∀ {n : SmNode},
      (∀ s ∈ n.srcs, D.S s) → n.In D
    | .str s, _ => .str s
    | .node pos src name cs ch, h => by
      simp only [SmNode.srcs, List.mem_append, Option.mem_toList] at h
      exact .node (fun s e => h s (.inl e)) (fun _ _ => hN _) (fun _ _ => hC _)
        (SmNode.inList_of hC hN (fun s hs => h s (.inr hs)))
  theorem SmNode.inList_of {D : Dom} (hC : ∀ s, D.C s) (hN : ∀ s, D.N s) : ∀ {l : List SmNode},
      (∀ s ∈ SmNode.srcsList l, D.S s) → NodesIn D l
    | [], _ => NodesIn.nil
    | c :: cs, h => by
      simp only [SmNode.srcsList, List.mem_append] at h
      exact NodesIn.cons (SmNode.in_of hC hN (fun s hs => h s (.inl hs)))
        (SmNode.inList_of hC hN (fun s hs => h s (.inr hs)))
end

/-- Contents are entered in order, the first one for a source stays. -/
def enterAll (l : List (Int × Int)) (cs : List (Int × Int)) : List (Int × Int) :=
  cs.foldl (fun l p => amOrInsert l p.1 p.2) l

theorem enterAll_append (l a b : List (Int × Int)) :
    enterAll l (a ++ b) = enterAll (enterAll l a) b := List.foldl_append ..

theorem enterAll_mem {cs : List (Int × Int)} : ∀ {l : List (Int × Int)} {p : Int × Int},
    p ∈ enterAll l cs → p ∈ l ∨ p ∈ cs := by
  induction cs with
  | nil => intro l p h; exact .inl h
  | cons c cs ih =>
    intro l p h
    rcases ih h with h | h
    · rcases amOrInsert_mem h with h | rfl
      · exact .inl h
      · exact .inr (List.mem_cons_self ..)
    · exact .inr (List.mem_cons_of_mem _ h)

theorem enterAll_keys {cs : List (Int × Int)} : ∀ {l : List (Int × Int)} {s : Int},
    s ∈ (enterAll l cs).map Prod.fst ↔ s ∈ l.map Prod.fst ∨ s ∈ cs.map Prod.fst := by
  induction cs with
  | nil => intro g s; simp [enterAll]
  | cons c cs ih =>
    intro g s
    rw [show enterAll g (c :: cs) = enterAll (amOrInsert g c.1 c.2) cs from rfl, ih, mem_insert,
      List.map_cons, List.mem_cons, or_assoc]

theorem lookup_insert {l : List (Int × Int)} {k v s : Int} :
    (amOrInsert l k v).lookup s = (l.lookup s).or ([(k, v)].lookup s) := by
  have app : ∀ l : List (Int × Int), (l ++ [(k, v)]).lookup s = (l.lookup s).or ([(k, v)].lookup s) := by
    intro l
    induction l with
    | nil => rfl
    | cons p l ih =>
      rw [List.cons_append, List.lookup_cons, List.lookup_cons, ih]
      split <;> rfl
  simp only [amOrInsert]
  split
  · rename_i x hx
    rw [List.lookup_cons, List.lookup_nil]
    by_cases hs : s = k
    · subst hs; rw [hx]; rfl
    · rw [show (s == k) = false by simpa using hs]
      cases l.lookup s <;> rfl
  · exact app l

/-- The first content entered for a source. -/
theorem enterAll_lookup {cs : List (Int × Int)} : ∀ {l : List (Int × Int)} {s : Int},
    (enterAll l cs).lookup s = (l.lookup s).or (cs.lookup s) := by
  induction cs with
  | nil => intro l s; simp [enterAll]
  | cons c cs ih =>
    intro l s
    rw [show enterAll l (c :: cs) = enterAll (amOrInsert l c.1 c.2) cs from rfl, ih, lookup_insert,
      Option.or_assoc]
    congr 1
    obtain ⟨a, b⟩ := c
    rw [List.lookup_cons, List.lookup_cons, List.lookup_nil]
    dsimp only
    cases s == a <;> rfl

theorem processContents_contents (cs : List (Int × Int)) : ∀ c : WalkCtx,
    (cs.foldl processContent c).map.contents = enterAll c.map.contents cs := by
  induction cs with
  | nil => intro c; rfl
  | cons p cs ih => intro c; exact ih _

mutual
  theorem walk_contents : ∀ (n : SmNode) (c : WalkCtx),
      (n.walk c).map.contents = enterAll c.map.contents n.cts
    | .str s, c => by
      simp only [SmNode.walk, SmNode.cts]
      exact processChunk_contents ..
    | .node pos src name cs ch, c => by
      simp only [SmNode.walk, SmNode.cts]
      rw [processContents_contents, walkList_contents, enterAll_append]
  theorem walkList_contents : ∀ (ch : List SmNode) (c : WalkCtx) (pos : Option (Nat × Nat))
      (src name : Option Int), (SmNode.walkList pos src name ch c).map.contents =
        enterAll c.map.contents (SmNode.ctsList ch)
    | [], c, _, _, _ => by simp only [SmNode.walkList, SmNode.ctsList]; rfl
    | .str s :: rest, c, pos, src, name => by
      simp only [SmNode.walkList, SmNode.ctsList, SmNode.cts, List.nil_append]
      rw [walkList_contents, processChunk_contents]
    | .node p s n cs ch :: rest, c, pos, src, name => by
      simp only [SmNode.walkList, SmNode.ctsList]
      rw [walkList_contents, walk_contents, enterAll_append]
end

theorem toStringWithGenerator_cov {n : SmNode} (h : n.Cov P) (file : Option Int)
    (root : Option Str) : (n.toStringWithGenerator file root).2.Cov P := by
  have hc : (n.toStringWithGenerator file root).2.contents = enterAll [] n.cts :=
    walk_contents n (WalkCtx.new file root)
  refine ⟨fun p hp => ?_, ?_⟩
  · rw [hc] at hp
    exact h.pairs p ((enterAll_mem hp).elim (fun h => by cases h) id)
  · refine toStringWithGenerator_in (SmNode.in_of (fun _ => trivial) (fun _ => trivial) fun s hs => ?_)
      file root
    simp only [Generator.Kept, Generator.Has, hc]
    exact enterAll_keys.2 (.inr (h.listed s hs))

theorem fromStringWithGenerator_cov {code : Str} {g : Generator} (h : g.Cov P) {n : SmNode}
    (e : fromStringWithGenerator code g = .ok n) : n.Cov P := by
  have hin := fromStringWithGenerator_in h.listed e
  have hcts : n.cts = g.contents := by
    simp only [fromStringWithGenerator] at e
    split at e
    · cases e
    · rename_i st es
      cases e
      have : NodesIn ⟨fun _ => True, fun _ => False, fun _ => True⟩ (fsFinish st) :=
        fsFinish_in (fsLoop_in ⟨NodesIn.nil, fun x hx => by cases hx⟩
          (fun m _ => ⟨fun _ _ => trivial, fun _ _ => trivial⟩) es)
      have hnil : SmNode.ctsList (fsFinish st) = [] := by
        rw [List.eq_nil_iff_forall_not_mem]
        intro p hp
        obtain ⟨c, hc, hp⟩ := SmNode.ctsList_mem.1 hp
        exact (this c hc).cts p hp
      simp [SmNode.cts, hnil]
  exact ⟨by rw [hcts]; exact h.pairs, fun s hs => by rw [hcts]; exact hin.srcs s hs⟩

/-! ## The kinds, column-level -/

/-- One source and its content at the top. -/
theorem owned_cov {name c : Int} (h : P name c) {ch : List SmNode}
    (hin : NodesIn ⟨(· = name), fun _ => False, fun _ => True⟩ ch) :
    (SmNode.node none none none [(name, c)] ch).Cov P := by
  have hnil : SmNode.ctsList ch = [] := by
    rw [List.eq_nil_iff_forall_not_mem]
    intro p hp
    obtain ⟨x, hx, hp⟩ := SmNode.ctsList_mem.1 hp
    exact (hin x hx).cts p hp
  refine ⟨by simpa [SmNode.cts, hnil] using h, fun s hs => ?_⟩
  simp only [SmNode.srcs, Option.toList_none, List.nil_append] at hs
  obtain ⟨x, hx, hs⟩ := SmNode.srcsList_mem.1 hs
  have : s = name := (hin x hx).srcs s hs
  simp [SmNode.cts, this]

theorem originalNode_cov {cols : Bool} {v : Str} {name vi : Int} (h : P name vi) :
    (originalNode cols v name vi).Cov P := owned_cov h (originalLines_in rfl)

theorem l2lNode_cov {v : Str} {name o : Int} (h : P name o) : (l2lNode v name o).Cov P :=
  owned_cov h (originalLines_in rfl)

theorem rawNode_cov (v : Str) : (rawNode v).Cov P := by
  have : (rawNode v).In ⟨fun _ => False, fun _ => False, fun _ => True⟩ := rawNode_in v
  exact ⟨fun p hp => (this.cts p hp).elim, fun s hs => (this.srcs s hs).elim⟩

mutual
  theorem cloneAndPrefix_same {p : Str} : ∀ (n : SmNode) (a : Int),
      (cloneAndPrefix p n a).1.cts = n.cts ∧ (cloneAndPrefix p n a).1.srcs = n.srcs
    | .str s, a => by simp [cloneAndPrefix, SmNode.cts, SmNode.srcs]
    | .node pos src name cs ch, a => by
      have := cloneAndPrefixList_same (p := p) ch a
      simp [cloneAndPrefix, SmNode.cts, SmNode.srcs, this]
  theorem cloneAndPrefixList_same {p : Str} : ∀ (l : List SmNode) (a : Int),
      SmNode.ctsList (cloneAndPrefixList p l a).1 = SmNode.ctsList l ∧
      SmNode.srcsList (cloneAndPrefixList p l a).1 = SmNode.srcsList l
    | [], a => by simp [cloneAndPrefixList]
    | c :: cs, a => by
      have h1 := cloneAndPrefix_same (p := p) c a
      have h2 := cloneAndPrefixList_same (p := p) cs (cloneAndPrefix p c a).2
      simp [cloneAndPrefixList, SmNode.ctsList, SmNode.srcsList, h1, h2]
end

theorem prefixNode_cov {p : Str} {n : SmNode} (h : n.Cov P) : (prefixNode p n).Cov P := by
  refine mkVec_cov fun c hc => ?_
  cases List.mem_singleton.1 hc
  have := cloneAndPrefix_same (p := p) n 1
  exact ⟨by rw [this.1]; exact h.pairs, by rw [this.1, this.2]; exact h.listed⟩

/-! ## List maps -/

/-- A source comes with a content. -/
def Owns (P : Int → Int → Prop) (s o : Option Int) : Prop :=
  ∀ x, s = some x → ∃ c, o = some c ∧ P x c

theorem Owns.none {o : Option Int} : Owns P none o := fun _ e => by cases e
theorem Owns.some {s c : Int} (h : P s c) : Owns P (some s) (some c) := fun _ e => by
  cases e; exact ⟨c, rfl, h⟩

/-- Unless a source is missing, the emitted lists line up. -/
theorem slmToStringWithSourceMap_cover {m : Slm} (h : SlmHas (Owns P) m) (file : Option Int)
    (hs : -1 ∉ (slmToStringWithSourceMap m file).map.sources) :
    (slmToStringWithSourceMap m file).map.sources.length =
      (slmToStringWithSourceMap m file).map.sourcesContent.length ∧
    Cover P (slmToStringWithSourceMap m file).map.sources
      (slmToStringWithSourceMap m file).map.sourcesContent := by
  have key := slmMappings_has (c := MapCtx.new) h (by simp [MapCtx.new])
  simp only [slmToStringWithSourceMap] at hs ⊢
  generalize (slmMappings MapCtx.new m).2.sources = l at key hs
  suffices (l.map fun p => p.1.getD (-1)).length = (l.filterMap fun p => p.2.2).length ∧
      ∀ p ∈ (l.map fun p => p.1.getD (-1)).zip (l.filterMap fun p => p.2.2), P p.1 p.2 from
    ⟨this.1, Nat.le_of_eq this.1, this.2⟩
  induction l with
  | nil => simp
  | cons q l ih =>
    have ih := ih (fun p hp => key p (List.mem_cons_of_mem _ hp))
      (fun hm => hs (by rw [List.map_cons]; exact List.mem_cons_of_mem _ hm))
    cases e : q.1 with
    | none => exact absurd (by simp [e]) hs
    | some s =>
      obtain ⟨c, hc, hp⟩ := key q (List.mem_cons_self ..) s e
      rw [List.filterMap_cons_some (f := fun p : Option Int × Nat × Option Int => p.2.2) hc]
      refine ⟨by simpa using ih.1, fun p hm => ?_⟩
      rcases List.mem_cons.1 hm with rfl | hm
      · dsimp only; rw [e]; exact hp
      · exact ih.2 p hm

/-! ## Objects -/

structure SmHolder.Cov (P : Int → Int → Prop) (h : SmHolder) : Prop where
  data : ∀ d, h.data = some d → Cover P d.sources d.contents
  gen : ∀ g, h.gen = some g → g.Cov P

/-- `L`: line by line, where the text of the object itself also serves as a content. -/
structure Sms.Cov (P : Int → Int → Prop) (L : Prop) (s : Sms) : Prop where
  own : L → P s.name s.valueIdx
  map : s.map.Cov P
  original : ∀ o, s.original = some o → P s.name o
  inner : ∀ i, s.inner = some i → i.Cov P

/-- `L`: line by line, where replacements are harmless. -/
def Obj.Cov (P : Int → Int → Prop) (L : Prop) : Obj → Prop
  | .original _ n v => P n v
  | .l2l _ n o => P n o
  | .sms s => s.Cov P L
  | .replace _ _ _ => L
  | _ => True

theorem SmHolder.Cov.getData {h h' : SmHolder} (H : h.Cov P) {d : SmData}
    (e : h.getData = .ok (d, h')) : Cover P d.sources d.contents ∧ h'.Cov P := by
  simp only [SmHolder.getData] at e
  split at e
  · cases e; exact ⟨H.data _ ‹_›, H⟩
  · split at e
    · cases e
    · split at e
      · cases e
      · rename_i m g' e1
        have := (H.gen _ ‹_›).toSourceMap e1
        cases e
        exact ⟨this.2.1, fun d hd' => by cases hd'; exact this.2.1, fun g hg => by cases hg; exact this.2.2⟩

theorem SmHolder.Cov.getGen {h h' : SmHolder} (H : h.Cov P) {g : Generator}
    (e : h.getGen = .ok (g, h')) : g.Cov P ∧ h'.Cov P := by
  simp only [SmHolder.getGen] at e
  split at e
  · cases e; exact ⟨H.gen _ ‹_›, H⟩
  · split at e
    · cases e
    · split at e
      · cases e
      · rename_i d hd _ g' e1
        have := fromSourceMap_cov (H.data _ hd) e1
        cases e
        exact ⟨this, H.data, fun g hg => by cases hg; exact this⟩

variable {L : Prop}

theorem Sms.Cov.node {s s' : Sms} (H : s.Cov P L) {n : SmNode} (e : s.node = .ok (n, s')) :
    n.Cov P ∧ s'.Cov P L := by
  simp only [Sms.node] at e
  split at e
  · cases e
  · rename_i g mp e1
    have h1 := H.map.getGen e1
    split at e
    · rename_i ei
      split at e
      · cases e
      · cases e
        exact ⟨fromStringWithGenerator_cov h1.1 ‹_›, H.own, h1.2, H.original, H.inner⟩
    · rename_i ih ei
      split at e
      · cases e
      · rename_i ig ih' e2
        have h2 := (H.inner _ ei).getGen e2
        split at e
        · cases e
        · rename_i g' ig' e3
          have hg : (if s.original.isSome then g.setSourceContent s.name s.original else g).Cov P := by
            cases eo : s.original with
            | none => exact h1.1
            | some o => exact h1.1.setSourceContent (H.original o eo)
          have h3 : g'.Cov P ∧ ig'.Cov P := by
            split at e3
            · cases e3; exact ⟨hg, h2.1⟩
            · exact hg.applySourceMap h2.1 e3
          split at e
          · cases e
          · cases e
            refine ⟨fromStringWithGenerator_cov h3.1 ‹_›, H.own,
              ⟨h1.2.data, fun g hg => by cases hg; exact h3.1⟩, H.original, ?_⟩
            intro i hi
            cases hi
            exact ⟨h2.2.data, fun g hg => by cases hg; exact h3.2⟩

theorem Sms.Cov.listMap {s s' : Sms} (H : s.Cov P L) {b : Bool} {m : Slm}
    (e : s.listMap b = .ok (m, s')) : (L → SlmHas (Owns P) m) ∧ s'.Cov P L := by
  simp only [Sms.listMap] at e
  split at e
  · cases e
    exact ⟨fun l => slmAddStr_in SlmHas.nil (Owns.some (H.own l)), H⟩
  · split at e
    · cases e
    · rename_i d mp e1
      have h1 := H.map.getData e1
      split at e
      · cases e
      · cases e
        exact ⟨fun _ => slmFromString_in (fun i s es => h1.1.get es) ‹_›, H.own, h1.2, H.original,
          H.inner⟩

theorem hNode_cov (cols mod : Bool) (fuel : Nat) : ∀ (h : Heap) (busy : List Nat) (c : Src)
    (n : SmNode) (h' : Heap), Heap.All (Obj.Cov P L) h → hNode cols mod fuel h busy c = .ok (n, h') →
    (¬ L → n.Cov P) ∧ Heap.All (Obj.Cov P L) h' := by
  induction fuel with
  | zero => intro h busy c s h' _ e; cases c <;> cases e
  | succ fuel ih =>
    intro h busy c n h' H e
    cases c with
    | str s => cases e
    | ref i =>
      simp only [hNode] at e
      split at e
      · cases e
      · split at e
        · cases e
        · cases e; exact ⟨fun _ => rawNode_cov _, H⟩
        · rename_i eo
          have ho : P _ _ := H _ _ eo
          cases e; exact ⟨fun _ => originalNode_cov ho, H⟩
        · rename_i eo
          have ho : P _ _ := H _ _ eo
          cases e; exact ⟨fun _ => l2lNode_cov ho, H⟩
        · rename_i eo
          have ho : Sms.Cov P L _ := H _ _ eo
          split at e
          · cases e
          · rename_i e1
            have := ho.node e1
            cases e
            exact ⟨fun _ => this.1, H.set (o := .sms _) this.2⟩
        · split at e
          · cases e
          · rename_i e1
            have := ih _ _ _ _ _ H e1
            cases e
            exact ⟨fun l => prefixNode_cov (this.1 l), this.2⟩
        · rename_i eo
          have ho : L := H _ _ eo
          split at e
          · cases e
          · rename_i e1
            have := ih _ _ _ _ _ (H.set (by exact ho)) e1
            split at e
            · cases e
            · cases e
              exact ⟨fun l => absurd ho l, this.2⟩
        · split at e
          · cases e
          · rename_i e1
            have := eachChild_all (P := fun n : SmNode => ¬ L → n.Cov P) (fun c _ h a h' H e => by
              cases c with
              | str s => cases e; exact ⟨fun _ => SmNode.str_cov s, H⟩
              | ref j => exact ih _ _ _ _ _ H e) H e1
            cases e
            exact ⟨fun l => mkVec_cov fun c hc => this.1 c hc l, this.2⟩

theorem hListMap_cov (cols mod : Bool) (fuel : Nat) : ∀ (h : Heap) (busy : List Nat) (c : Src)
    (m : Slm) (h' : Heap), Heap.All (Obj.Cov P L) h → hListMap cols mod fuel h busy c = .ok (m, h') →
    (L → SlmHas (Owns P) m) ∧ Heap.All (Obj.Cov P L) h' := by
  induction fuel with
  | zero => intro h busy c s h' _ e; cases c <;> cases e
  | succ fuel ih =>
    intro h busy c n h' H e
    cases c with
    | str s => cases e
    | ref i =>
      simp only [hListMap] at e
      split at e
      · cases e
      · split at e
        · cases e
        · cases e; exact ⟨fun _ => slmAddStr_in SlmHas.nil (Owns.none (o := none)), H⟩
        · rename_i eo
          have ho : P _ _ := H _ _ eo
          cases e; exact ⟨fun _ => slmAddStr_in SlmHas.nil (Owns.some ho), H⟩
        · rename_i eo
          have ho : P _ _ := H _ _ eo
          cases e; exact ⟨fun _ => slmAddStr_in SlmHas.nil (Owns.some ho), H⟩
        · rename_i eo
          have ho : Sms.Cov P L _ := H _ _ eo
          split at e
          · cases e
          · rename_i e1
            have := ho.listMap e1
            cases e
            exact ⟨this.1, H.set (o := .sms _) this.2⟩
        · split at e
          · cases e
          · rename_i e1
            have := ih _ _ _ _ _ H e1
            cases e
            exact ⟨fun l => prefixListMap_in (this.1 l), this.2⟩
        · rename_i eo
          have ho : L := H _ _ eo
          split at e
          · cases e
          · rename_i e1
            have := ih _ _ _ _ _ (H.set (by exact ho)) e1
            cases e
            exact ⟨fun l => replaceListMap_in Owns.none (this.1 l) _, this.2⟩
        · split at e
          · cases e
          · rename_i e1
            have := eachChild_all (P := fun x : Str ⊕ Slm => L → ∀ c, x = .inr c → SlmHas (Owns P) c)
              (fun c _ h a h' H e => by
                cases c with
                | str s => cases e; exact ⟨fun _ c hc => (by cases hc), H⟩
                | ref j =>
                  dsimp only at e
                  split at e
                  · cases e
                  · rename_i e2
                    have := ih _ _ _ _ _ H e2
                    cases e
                    exact ⟨fun l c hc => by cases hc; exact this.1 l, this.2⟩) H e1
            cases e
            exact ⟨fun l => concatMaps_in Owns.none SlmHas.nil fun x hx => this.1 x hx l, this.2⟩

/-- The pairs in the arguments of a call. -/
def Op.Cov (P : Int → Int → Prop) (L : Prop) : Op → Prop
  | .newOriginal _ n v => P n v
  | .newL2l _ n o => P n o
  | .newSms _ v n m o i => (L → P n v) ∧ m.Cov P ∧ (∀ x, o = some x → P n x) ∧
      ∀ x, i = some x → x.Cov P
  | .newReplace _ => L
  | _ => True

/-- The pairs in an answer. -/
def Answer.Cov (P : Int → Int → Prop) (L : Prop) : Answer → Prop
  | .node n => ¬ L → n.Cov P
  | .listMap m => L → SlmHas (Owns P) m
  | _ => True

theorem Op.run_cov {op : Op} {h h' : Heap} {a : Answer} (H : Heap.All (Obj.Cov P L) h)
    (ho : op.Cov P L) (e : op.run h = .ok (a, h')) : a.Cov P L ∧ Heap.All (Obj.Cov P L) h' := by
  cases op <;> simp only [Op.run, Except.map_ok_iff] at e
  case newRaw => cases e; exact ⟨trivial, H.push trivial⟩
  case newOriginal => cases e; exact ⟨trivial, H.push ho⟩
  case newL2l => cases e; exact ⟨trivial, H.push ho⟩
  case newSms =>
    cases e
    exact ⟨trivial, H.push (o := .sms _) ⟨ho.1, ho.2.1, ho.2.2.1, ho.2.2.2⟩⟩
  case newPrefix =>
    split at e
    · cases e; exact ⟨trivial, H.push trivial⟩
    · cases e
  case newReplace =>
    split at e
    · cases e; exact ⟨trivial, H.push (by exact ho)⟩
    · cases e
  case newConcat => cases e; exact ⟨trivial, H.push trivial⟩
  case add =>
    obtain ⟨h1, e, e'⟩ := e
    cases e'
    simp only [hAdd] at e
    split at e
    · split at e
      · cases e; exact ⟨trivial, H.set trivial⟩
      · split at e
        · cases e
        · split at e
          · cases e
          · cases e; exact ⟨trivial, H.set trivial⟩
        · cases e; exact ⟨trivial, H.set trivial⟩
    · cases e
  case replace =>
    obtain ⟨h1, e, e'⟩ := e
    cases e'
    simp only [hReplace] at e
    split at e
    · rename_i eo
      have : L := H _ _ eo
      cases e; exact ⟨trivial, H.set (by exact this)⟩
    · cases e
  case insert =>
    obtain ⟨h1, e, e'⟩ := e
    cases e'
    simp only [hInsert] at e
    split at e
    · rename_i eo
      have : L := H _ _ eo
      cases e; exact ⟨trivial, H.set (by exact this)⟩
    · cases e
  case source =>
    obtain ⟨⟨s, h1⟩, e, e'⟩ := e
    cases e'
    exact ⟨trivial, hSource_all (fun _ _ _ _ _ _ h => h) _ _ _ _ _ _ H e⟩
  case size =>
    obtain ⟨⟨s, h1⟩, e, e'⟩ := e
    cases e'
    exact ⟨trivial, hSize_all (fun _ _ _ _ _ _ h => h) _ _ _ _ _ _ H e⟩
  case node =>
    obtain ⟨⟨s, h1⟩, e, e'⟩ := e
    cases e'
    exact hNode_cov _ _ _ _ _ _ _ _ H e
  case listMap =>
    obtain ⟨⟨s, h1⟩, e, e'⟩ := e
    cases e'
    exact hListMap_cov _ _ _ _ _ _ _ _ H e

end WS
