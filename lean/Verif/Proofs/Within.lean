import Verif.Proofs.Sort
import Verif.Model.History
import Verif.Proofs.Serialize
import Verif.Proofs.JsRun
/-! # Where the indices in maps come from

Sets of indices for sources, contents and names: what is computed from things that stay within the
sets stays within them. -/

namespace WS

/-- Sets of indices. -/
structure Dom where
  S : Int → Prop
  C : Int → Prop
  N : Int → Prop

def OptIn (P : Int → Prop) (o : Option Int) : Prop := ∀ x, o = some x → P x

theorem OptIn.none {P : Int → Prop} : OptIn P none := fun _ h => by cases h
theorem OptIn.some {P : Int → Prop} {x : Int} (h : P x) : OptIn P (some x) := fun _ e => by
  cases e; exact h
theorem OptIn.get {P : Int → Prop} {l : List Int} {i : Nat} (h : ∀ x ∈ l, P x) : OptIn P l[i]? :=
  fun _ e => h _ (List.mem_of_getElem? e)
theorem OptIn.head {P : Int → Prop} {l : List Int} (h : ∀ x ∈ l, P x) : OptIn P l.head? :=
  fun _ e => h _ (List.mem_of_mem_head? (by simp [e]))

/-! ## Generators -/

structure Mapping.In (D : Dom) (m : Mapping) : Prop where
  source : OptIn D.S m.source
  name : OptIn D.N m.name

structure Generator.In (D : Dom) (g : Generator) : Prop where
  maps : ∀ m ∈ g.mappings.list, m.In D
  sources : ∀ p ∈ g.sources, D.S p.1
  names : ∀ p ∈ g.names, D.N p.1
  contents : ∀ p ∈ g.contents, D.C p.2

variable {D : Dom}

theorem amOrInsert_mem {β : Type _} {l : List (Int × β)} {k : Int} {v : β} {p : Int × β}
    (h : p ∈ amOrInsert l k v) : p ∈ l ∨ p = (k, v) := by
  simp only [amOrInsert] at h
  split at h
  · exact .inl h
  · simpa using h

theorem MappingList.add_mem {l : MappingList} {m x : Mapping} (h : x ∈ (l.add m).list) :
    x ∈ l.list ∨ x = m := by
  have : (l.add m).list = l.list ++ [m] := by
    simp only [MappingList.add]
    cases l.last with
    | none => rfl
    | some lm => dsimp only; split <;> rfl
  rw [this] at h
  simpa using h

theorem MappingList.sort_mem {l : MappingList} {x : Mapping} (h : x ∈ l.sort.list) : x ∈ l.list := by
  simp only [MappingList.sort] at h
  split at h
  · exact h
  · exact (sortBy_perm _).mem_iff.1 h

theorem Generator.new_in (file : Option Int) (root : Option Str) (b : Bool) :
    (Generator.new file root b).In D :=
  ⟨by simp [Generator.new, MappingList.new], by simp [Generator.new], by simp [Generator.new],
    by simp [Generator.new]⟩

theorem Generator.In.addSource {g : Generator} (h : g.In D) {s : Int} (hs : D.S s) :
    (g.addSource s).In D := by
  refine ⟨h.maps, fun p hp => ?_, h.names, h.contents⟩
  rcases amOrInsert_mem hp with hp | rfl
  · exact h.sources p hp
  · exact hs

theorem Generator.In.addName {g : Generator} (h : g.In D) {s : Int} (hs : D.N s) :
    (g.addName s).In D := by
  refine ⟨h.maps, h.sources, fun p hp => ?_, h.contents⟩
  rcases amOrInsert_mem hp with hp | rfl
  · exact h.names p hp
  · exact hs

theorem Generator.In.addMapping {g : Generator} (h : g.In D) {m : Mapping} (hm : m.In D) :
    (g.addMapping m).In D := by
  simp only [Generator.addMapping]
  have push : ∀ g : Generator, g.In D → ({ g with mappings := g.mappings.add m } : Generator).In D := by
    intro g h
    refine ⟨fun x hx => ?_, h.sources, h.names, h.contents⟩
    rcases MappingList.add_mem hx with hx | rfl
    · exact h.maps x hx
    · exact hm
  have names : ∀ g : Generator, g.In D →
      (match m.name with | some n => g.addName n | none => g).In D := by
    intro g h
    cases e : m.name with
    | none => exact h
    | some n => exact h.addName (hm.name n e)
  refine push _ (names _ ?_)
  cases e : m.source with
  | none => exact h
  | some s => exact h.addSource (hm.source s e)

theorem Generator.In.setSourceContent {g : Generator} (h : g.In D) {s : Int} {c : Option Int}
    (hc : OptIn D.C c) : (g.setSourceContent s c).In D := by
  cases c with
  | none => exact ⟨h.maps, h.sources, h.names, fun p hp => h.contents p (List.mem_filter.1 hp).1⟩
  | some c =>
    refine ⟨h.maps, h.sources, h.names, fun p hp => ?_⟩
    rcases amOrInsert_mem hp with hp | rfl
    · exact h.contents p hp
    · exact hc c rfl

theorem Generator.In.sort {g : Generator} (h : g.In D) :
    ({ g with mappings := g.mappings.sort } : Generator).In D :=
  ⟨fun m hm => h.maps m (MappingList.sort_mem hm), h.sources, h.names, h.contents⟩

/-- A finished map whose indices lie in the sets. -/
structure SourceMap.In (D : Dom) (m : SourceMap) : Prop where
  sources : ∀ s ∈ m.sources, D.S s
  contents : ∀ c ∈ m.sourcesContent, D.C c
  names : ∀ n ∈ m.names, D.N n

theorem Generator.In.toSourceMap {g g' : Generator} (h : g.In D) {m : SourceMap}
    (e : g.toSourceMap = .ok (m, g')) : m.In D ∧ g'.In D := by
  simp only [Generator.toSourceMap, Generator.serializeMappings] at e
  split at e
  · cases e
  · rename_i s g1 e1
    split at e1
    · cases e1; cases e
      refine ⟨⟨?_, ?_, ?_⟩, h.sort⟩
      · intro s hs
        obtain ⟨p, hp, rfl⟩ := List.mem_map.1 hs
        exact h.sources p hp
      · intro c hc
        obtain ⟨p, -, hp⟩ := List.mem_filterMap.1 hc
        exact h.contents (p.1, c) (lookup_pair_mem hp)
      · intro s hs
        obtain ⟨p, hp, rfl⟩ := List.mem_map.1 hs
        exact h.names p hp
    · cases e1

theorem originalPositionIn_in {l : List Mapping} (h : ∀ m ∈ l, m.In D) (line col : Nat) :
    (originalPositionIn l line col).In D := by
  have he : emptyMapping.In D := ⟨OptIn.none, OptIn.none⟩
  have key : ∀ f : Option Mapping, (∀ m, f = some m → m.In D) →
      (match f with
        | none => emptyMapping
        | some m => if m.generated.1 = line then m else emptyMapping).In D := by
    intro f hf
    cases f with
    | none => exact he
    | some m =>
      dsimp only
      split
      · exact hf m rfl
      · exact he
  refine key _ fun m hf => ?_
  split at hf
  · exact h m (List.mem_of_getElem? hf)
  · split at hf
    · cases hf
    · exact h m (List.mem_of_getElem? hf)

theorem Generator.In.originalPositionFor {g : Generator} (h : g.In D) (line col : Nat) :
    (g.originalPositionFor line col).1.In D ∧ (g.originalPositionFor line col).2.In D :=
  ⟨originalPositionIn_in h.sort.maps line col, h.sort⟩

theorem applyOne_in {file : Option Int} {inner : Generator} (hi : inner.In D) {m : Mapping}
    (hm : m.In D) : (applyOne file inner m).1.In D ∧ (applyOne file inner m).2.In D := by
  simp only [applyOne]
  split
  · exact ⟨hm, hi⟩
  · rename_i line col _
    split
    · have := hi.originalPositionFor line col
      split
      · refine ⟨⟨this.1.source, ?_⟩, this.2⟩
        dsimp only
        split
        · exact this.1.name
        · exact hm.name
      · exact ⟨hm, this.2⟩
    · exact ⟨hm, hi⟩

theorem applyLoop_in {file : Option Int} (l : List Mapping) : ∀ {inner : Generator}, inner.In D →
    (∀ m ∈ l, m.In D) →
    (∀ m ∈ (applyLoop file inner l).1, m.In D) ∧ (applyLoop file inner l).2.In D := by
  induction l with
  | nil => intro inner hi _; exact ⟨by simp [applyLoop], hi⟩
  | cons m l ih =>
    intro inner hi hl
    have h1 := applyOne_in (file := file) hi (hl m (List.mem_cons_self ..))
    have h2 := ih h1.2 (fun x hx => hl x (List.mem_cons_of_mem _ hx))
    simp only [applyLoop]
    refine ⟨fun x hx => ?_, h2.2⟩
    rcases List.mem_cons.1 hx with rfl | hx
    · exact h1.1
    · exact h2.1 x hx

theorem foldl_in {α β : Type _} {P : β → Prop} {f : β → α → β} {l : List α}
    (h : ∀ b a, a ∈ l → P b → P (f b a)) : ∀ {b : β}, P b → P (l.foldl f b) := by
  induction l with
  | nil => intro b hb; exact hb
  | cons a l ih =>
    intro b hb
    exact ih (fun b a ha => h b a (List.mem_cons_of_mem _ ha)) (h b a (List.mem_cons_self ..) hb)

theorem Generator.In.applySourceMap {g g' inner inner' : Generator} {f : Option Int} (h : g.In D)
    (hi : inner.In D) (e : g.applySourceMap inner f = .ok (g', inner')) : g'.In D ∧ inner'.In D := by
  simp only [Generator.applySourceMap] at e
  split at e
  · cases e
  · rename_i file _
    have hl := applyLoop_in (file := some file) g.mappings.setUnsorted.list hi
      (fun m hm => h.maps m hm)
    generalize applyLoop (some file) inner g.mappings.setUnsorted.list = r at e hl
    obtain ⟨list, in'⟩ := r
    dsimp only at e hl
    cases e
    refine ⟨?_, hl.2⟩
    refine foldl_in (P := fun g : Generator => g.In D)
      (fun g p hp hg => hg.setSourceContent (.some (hl.2.contents p hp))) ?_
    refine foldl_in (P := fun g : Generator => g.In D) (fun g n hn hg => hg.addName ?_) ?_
    · obtain ⟨m, hm, en⟩ := List.mem_filterMap.1 hn
      exact (hl.1 m hm).name n en
    · refine foldl_in (P := fun g : Generator => g.In D) (fun g n hn hg => hg.addSource ?_) ?_
      · obtain ⟨m, hm, en⟩ := List.mem_filterMap.1 hn
        exact (hl.1 m hm).source n en
      · refine ⟨hl.1, fun p hp => ?_, by simp, h.contents⟩
        dsimp only at hp
        split at hp
        · exact h.sources p hp
        · cases hp

theorem dedup_mem {x : Int} : ∀ {l seen : List Int}, x ∈ dedup seen l → x ∈ l
  | [], _, h => by simp [dedup] at h
  | a :: l, seen, h => by
    simp only [dedup] at h
    split at h
    · exact List.mem_cons_of_mem _ (dedup_mem h)
    · rcases List.mem_cons.1 h with rfl | h
      · exact List.mem_cons_self ..
      · exact List.mem_cons_of_mem _ (dedup_mem h)

theorem registerSources_in {b : Bool} : ∀ {ss cs : List Int} {g : Generator}, g.In D →
    (∀ s ∈ ss, D.S s) → (∀ c ∈ cs, D.C c) → (registerSources b g ss cs).In D
  | [], _, _, hg, _, _ => hg
  | s :: ss, cs, g, hg, hs, hc => by
    simp only [registerSources]
    refine registerSources_in (Generator.In.setSourceContent ?_ (OptIn.head hc))
      (fun x hx => hs x (List.mem_cons_of_mem _ hx))
      (fun x hx => hc x (List.mem_of_mem_tail hx))
    split
    · exact hg.addSource (hs s (List.mem_cons_self ..))
    · exact hg

theorem resolveParsed_in {ss ns : List Int} (hs : ∀ s ∈ ss, D.S s) (hn : ∀ n ∈ ns, D.N n)
    {p : Parsed} {m : Mapping} (e : resolveParsed ss ns p = .ok m) : m.In D := by
  simp only [resolveParsed] at e
  split at e
  · cases e; exact ⟨OptIn.none, OptIn.none⟩
  · split at e
    · cases e
    · rename_i name en
      split at e
      · cases e
      · rename_i src es
        cases e
        refine ⟨OptIn.some (hs _ (List.mem_of_getElem? es)), ?_⟩
        dsimp only
        split at en
        · cases en; exact OptIn.none
        · split at en
          · cases en; exact OptIn.some (hn _ (List.mem_of_getElem? ‹_›))
          · cases en

theorem addParsed_in {ss ns : List Int} (hs : ∀ s ∈ ss, D.S s) (hn : ∀ n ∈ ns, D.N n) :
    ∀ {ps : List Parsed} {g g' : Generator}, g.In D → addParsed ss ns g ps = .ok g' → g'.In D
  | [], _, _, hg, e => by cases e; exact hg
  | p :: ps, g, g', hg, e => by
    simp only [addParsed] at e
    split at e
    · cases e
    · rename_i m em
      exact addParsed_in hs hn (hg.addMapping (resolveParsed_in hs hn em)) e

theorem fromSourceMap_in {ss cs ns : List Int} {mp : Str} {file : Option Int} {root : Option Str}
    {b : Bool} {g : Generator} (hs : ∀ s ∈ ss, D.S s) (hc : ∀ c ∈ cs, D.C c) (hn : ∀ n ∈ ns, D.N n)
    (e : Generator.fromSourceMap ss cs mp ns file root b = .ok g) : g.In D := by
  simp only [Generator.fromSourceMap] at e
  split at e
  · cases e
  · refine addParsed_in (ss := if b then dedup [] ss else ss) (ns := if b then dedup [] ns else ns)
      ?_ ?_ (registerSources_in (Generator.new_in file root true) hs hc) e
    · intro s h
      split at h
      · exact hs s (dedup_mem h)
      · exact hs s h
    · intro s h
      split at h
      · exact hn s (dedup_mem h)
      · exact hn s h

/-! ## Nodes -/

inductive SmNode.In (D : Dom) : SmNode → Prop where
  | str (s : Str) : SmNode.In D (.str s)
  | node {pos : Option (Nat × Nat)} {src name : Option Int} {cs : List (Int × Int)}
      {ch : List SmNode} : OptIn D.S src → OptIn D.N name → (∀ p ∈ cs, D.C p.2) →
      (∀ c ∈ ch, SmNode.In D c) → SmNode.In D (.node pos src name cs ch)

def NodesIn (D : Dom) (l : List SmNode) : Prop := ∀ c ∈ l, c.In D

theorem NodesIn.append {a b : List SmNode} (ha : NodesIn D a) (hb : NodesIn D b) :
    NodesIn D (a ++ b) := fun c hc => (List.mem_append.1 hc).elim (ha c) (hb c)

theorem NodesIn.one {a : SmNode} (h : a.In D) : NodesIn D [a] := fun c hc => by
  cases List.mem_singleton.1 hc; exact h

theorem NodesIn.nil : NodesIn D [] := fun c hc => by cases hc

theorem NodesIn.cons {a : SmNode} {l : List SmNode} (h : a.In D) (hl : NodesIn D l) :
    NodesIn D (a :: l) := NodesIn.append (NodesIn.one h) hl

theorem NodesIn.head {a : SmNode} {l : List SmNode} (h : NodesIn D (a :: l)) : a.In D :=
  h a (List.mem_cons_self ..)

theorem NodesIn.tail {a : SmNode} {l : List SmNode} (h : NodesIn D (a :: l)) : NodesIn D l :=
  fun c hc => h c (List.mem_cons_of_mem _ hc)

theorem addStrChild_in {l : List SmNode} (h : NodesIn D l) (s : Str) : NodesIn D (addStrChild l s) := by
  simp only [addStrChild]
  split
  · exact h
  · exact h.append (NodesIn.one (.str s))

theorem mkStr_in {pos : Option (Nat × Nat)} {src name : Option Int} (hs : OptIn D.S src)
    (hn : OptIn D.N name) (s : Str) : (SmNode.mkStr pos src name s).In D :=
  .node hs hn (by simp) (addStrChild_in NodesIn.nil s)

theorem mkVec_in {v : List SmNode} (h : NodesIn D v) : (SmNode.mkVec none none none v).In D :=
  .node OptIn.none OptIn.none (by simp) h

theorem addMappingWithCode_in {l : List SmNode} (h : NodesIn D l) {m : Option Mapping}
    (hm : ∀ x, m = some x → x.In D) (code : Str) : NodesIn D (addMappingWithCode l m code) := by
  cases m with
  | none => exact addStrChild_in h code
  | some m =>
    simp only [addMappingWithCode]
    split
    · exact h.append (NodesIn.one (mkStr_in (hm m rfl).source (hm m rfl).name code))
    · exact addStrChild_in h code

theorem chunkHead_in {c : WalkCtx} (h : c.map.In D) {src name : Option Int} (hs : OptIn D.S src)
    (hn : OptIn D.N name) (pos : Option (Nat × Nat)) (chunk : Str) :
    (chunkHead c chunk src pos name).map.In D := by
  simp only [chunkHead]
  split
  · dsimp only
    split
    · exact h.addMapping ⟨hs, hn⟩
    · exact h
  · split
    · exact h.addMapping (m := ⟨c.gen, none, none, none⟩) ⟨OptIn.none, OptIn.none⟩
    · exact h

theorem chunkChars_in {src name : Option Int} (hs : OptIn D.S src) (hn : OptIn D.N name)
    (pos : Option (Nat × Nat)) : ∀ {s : Str} {c : WalkCtx}, c.map.In D →
    (chunkChars src pos name c s).map.In D
  | [], _, h => h
  | ch :: s, c, h => by
    simp only [chunkChars]
    split
    · refine chunkChars_in hs hn pos ?_
      split
      · exact h
      · split
        · exact h.addMapping ⟨hs, hn⟩
        · exact h
    · exact chunkChars_in hs hn pos h

theorem processChunk_in {c : WalkCtx} (h : c.map.In D) {src name : Option Int} (hs : OptIn D.S src)
    (hn : OptIn D.N name) (pos : Option (Nat × Nat)) (chunk : Str) :
    (processChunk c chunk src pos name).map.In D :=
  chunkChars_in hs hn pos (chunkHead_in h hs hn pos chunk)

mutual
  theorem walk_in : ∀ {n : SmNode} {c : WalkCtx}, n.In D → c.map.In D → (n.walk c).map.In D
    | .str s, c, _, h => by
      simp only [SmNode.walk]
      exact processChunk_in h OptIn.none OptIn.none none s
    | .node pos src name cs ch, c, hn, h => by
      cases hn with
      | node h1 h2 h3 h4 =>
        simp only [SmNode.walk]
        exact foldl_in (P := fun c : WalkCtx => c.map.In D)
          (fun c p hp hc => hc.setSourceContent (.some (h3 p hp))) (walkList_in h1 h2 h4 h)
  theorem walkList_in : ∀ {ch : List SmNode} {c : WalkCtx} {pos : Option (Nat × Nat)}
      {src name : Option Int}, OptIn D.S src → OptIn D.N name → NodesIn D ch → c.map.In D →
      (SmNode.walkList pos src name ch c).map.In D
    | [], c, _, _, _, _, _, _, h => by simp only [SmNode.walkList]; exact h
    | .str s :: rest, c, pos, src, name, hs, hn, hl, h => by
      simp only [SmNode.walkList]
      exact walkList_in hs hn hl.tail (processChunk_in h hs hn pos s)
    | .node p s n cs ch :: rest, c, pos, src, name, hs, hn, hl, h => by
      simp only [SmNode.walkList]
      exact walkList_in hs hn hl.tail (walk_in hl.head h)
end

theorem toStringWithGenerator_in {n : SmNode} (h : n.In D) (file : Option Int) (root : Option Str) :
    (n.toStringWithGenerator file root).2.In D := walk_in h (Generator.new_in file root true)

structure FsState.In (D : Dom) (st : FsState) : Prop where
  children : NodesIn D st.children
  last : ∀ x, st.lastMapping = some x → x.In D

theorem skipLines_in : ∀ {n : Nat} {st : FsState}, st.In D → (skipLines n st).In D
  | 0, _, h => h
  | n + 1, st, h => by
    simp only [skipLines]
    exact skipLines_in ⟨addStrChild_in h.children _, h.last⟩

theorem fsTail_in {st st' : FsState} (h : st.In D) {m : Mapping} (hm : m.In D)
    (e : fsTail st m = .ok st') : st'.In D := by
  simp only [fsTail] at e
  have hk := skipLines_in (n := m.generated.1 - st.lastPos.1) h
  split at e
  · split at e
    · cases e
    · cases e
      exact ⟨addStrChild_in hk.children _, fun x hx => by cases hx; exact hm⟩
  · cases e
    exact ⟨hk.children, fun x hx => by cases hx; exact hm⟩

theorem fsStep_in {st st' : FsState} (h : st.In D) {m : Mapping} (hm : m.In D)
    (e : fsStep st m = .ok st') : st'.In D := by
  simp only [fsStep] at e
  split at e
  · rename_i lm el
    have hlm : ∀ x, some lm = some x → x.In D := fun x hx => by cases hx; exact h.last _ el
    split at e
    · refine fsTail_in ⟨addMappingWithCode_in h.children hlm _, ?_⟩ hm e
      intro x hx
      exact h.last x hx
    · split at e
      · cases e
      · cases e
        exact ⟨addMappingWithCode_in h.children hlm _, fun x hx => by cases hx; exact hm⟩
  · exact fsTail_in h hm e

theorem fsLoop_in : ∀ {ms : List Mapping} {st st' : FsState}, st.In D → (∀ m ∈ ms, m.In D) →
    fsLoop st ms = .ok st' → st'.In D
  | [], _, _, h, _, e => by cases e; exact h
  | m :: ms, st, st', h, hm, e => by
    simp only [fsLoop] at e
    split at e
    · cases e
    · exact fsLoop_in (fsStep_in h (hm m (List.mem_cons_self ..)) ‹_›)
        (fun x hx => hm x (List.mem_cons_of_mem _ hx)) e

theorem fsFinish_in {st : FsState} (h : st.In D) : NodesIn D (fsFinish st) := by
  simp only [fsFinish]
  split
  · split
    · rename_i lm el
      exact addStrChild_in (addMappingWithCode_in h.children
        (fun x hx => by cases hx; exact h.last _ el) _) _
    · exact addStrChild_in h.children _
  · exact h.children

theorem fromStringWithGenerator_in {code : Str} {g : Generator} (h : g.In D) {n : SmNode}
    (e : fromStringWithGenerator code g = .ok n) : n.In D := by
  simp only [fromStringWithGenerator] at e
  split at e
  · cases e
  · rename_i st es
    cases e
    exact .node OptIn.none OptIn.none h.contents
      (fsFinish_in (fsLoop_in ⟨NodesIn.nil, fun x hx => by cases hx⟩ h.maps es))

/-! ## The kinds, column-level -/

theorem originalItems_in {name : Int} (hn : D.S name) (lineNo : Nat) :
    ∀ {items : List Str} {pos : Nat} {acc : List SmNode}, NodesIn D acc →
    NodesIn D (originalItems name lineNo pos acc items)
  | [], _, _, h => h
  | i :: is, pos, acc, h => by
    simp only [originalItems]
    split
    · exact originalItems_in hn lineNo (addStrChild_in h i)
    · exact originalItems_in hn lineNo (h.append (NodesIn.one (mkStr_in (.some hn) OptIn.none i)))

theorem originalLines_in {cols : Bool} {name : Int} (hn : D.S name) :
    ∀ {ls : List Str} {i : Nat}, NodesIn D (originalLines cols name i ls)
  | [], _ => NodesIn.nil
  | l :: ls, i => by
    simp only [originalLines]
    refine NodesIn.cons ?_ (originalLines_in hn)
    simp only [originalLine]
    split
    · exact .node OptIn.none OptIn.none (by simp) (originalItems_in hn i NodesIn.nil)
    · exact mkStr_in (.some hn) OptIn.none l

theorem originalNode_in {cols : Bool} {v : Str} {name vi : Int} (hn : D.S name) (hc : D.C vi) :
    (originalNode cols v name vi).In D :=
  .node OptIn.none OptIn.none (by simpa using hc) (originalLines_in hn)

theorem l2lNode_in {v : Str} {name o : Int} (hn : D.S name) (hc : D.C o) :
    (l2lNode v name o).In D :=
  .node OptIn.none OptIn.none (by simpa using hc) (originalLines_in hn)

theorem rawNode_in (v : Str) : (rawNode v).In D := mkStr_in OptIn.none OptIn.none v

mutual
  theorem cloneAndPrefix_in {p : Str} : ∀ {n : SmNode} {a : Int}, n.In D →
      (cloneAndPrefix p n a).1.In D
    | .str s, a, _ => by simp only [cloneAndPrefix]; exact .str _
    | .node pos src name cs ch, a, h => by
      cases h with
      | node h1 h2 h3 h4 =>
        simp only [cloneAndPrefix]
        exact .node h1 h2 h3 (cloneAndPrefixList_in h4)
  theorem cloneAndPrefixList_in {p : Str} : ∀ {l : List SmNode} {a : Int}, NodesIn D l →
      NodesIn D (cloneAndPrefixList p l a).1
    | [], a, _ => by simp only [cloneAndPrefixList]; exact NodesIn.nil
    | c :: cs, a, h => by
      simp only [cloneAndPrefixList]
      exact NodesIn.cons (cloneAndPrefix_in h.head) (cloneAndPrefixList_in h.tail)
end

theorem prefixNode_in {p : Str} {n : SmNode} (h : n.In D) : (prefixNode p n).In D :=
  mkVec_in (NodesIn.one (cloneAndPrefix_in h))

mutual
  theorem splitSm_in : ∀ {n : SmNode} {pos : Int}, n.In D →
      (∀ l r, splitSm n pos = .ok (l, r) → l.In D ∧ r.In D) ∧
      (∀ q m, splitSm n pos = .error (q, m) → m.In D)
    | .str s, pos, _ => by
      simp only [splitSm]
      refine ⟨fun l r e => ?_, fun q m e => ?_⟩
      · split at e
        · cases e; exact ⟨.str _, .str _⟩
        · cases e
      · split at e
        · cases e
        · cases e; exact .str _
    | .node p src name cs ch, pos, h => by
      cases h with
      | node h1 h2 h3 h4 =>
        have ih := splitSmList_in (pos := pos) h4
        simp only [splitSm]
        refine ⟨fun l r e => ?_, fun q m e => ?_⟩
        · split at e
          · rename_i ls rs e1
            cases e
            exact ⟨.node h1 h2 h3 (ih.1 _ _ e1).1, .node h1 h2 (by simp) (ih.1 _ _ e1).2⟩
          · cases e
        · split at e
          · cases e
          · rename_i q' ls e1
            cases e
            exact .node h1 h2 h3 (ih.2 _ _ e1)
  theorem splitSmList_in : ∀ {l : List SmNode} {pos : Int}, NodesIn D l →
      (∀ a b, splitSmList l pos = .ok (a, b) → NodesIn D a ∧ NodesIn D b) ∧
      (∀ q m, splitSmList l pos = .error (q, m) → NodesIn D m)
    | [], pos, _ => by
      simp only [splitSmList]
      exact ⟨fun _ _ e => (by cases e), fun _ _ e => by cases e; exact NodesIn.nil⟩
    | x :: xs, pos, h => by
      have hx := splitSm_in (pos := pos) h.head
      simp only [splitSmList]
      refine ⟨fun a b e => ?_, fun q m e => ?_⟩
      · split at e
        · rename_i l r e1
          cases e
          exact ⟨NodesIn.one (hx.1 _ _ e1).1, NodesIn.cons (hx.1 _ _ e1).2 h.tail⟩
        · rename_i p x' e1
          have hxs := splitSmList_in (pos := p) h.tail
          split at e
          · rename_i ls rs e2
            cases e
            exact ⟨NodesIn.cons (hx.2 _ _ e1) (hxs.1 _ _ e2).1, (hxs.1 _ _ e2).2⟩
          · cases e
      · split at e
        · cases e
        · rename_i p x' e1
          have hxs := splitSmList_in (pos := p) h.tail
          split at e
          · cases e
          · rename_i q' ls e2
            cases e
            exact NodesIn.cons (hx.2 _ _ e1) (hxs.2 _ _ e2)
end

theorem replacementNode_in {old n : SmNode} (h : old.In D) {t : Str}
    (e : replacementNode old t = .ok n) : n.In D := by
  cases old with
  | str s => cases e
  | node p s nm c ch =>
    simp only [replacementNode] at e
    cases e
    exact mkStr_in ((toStringWithGenerator_in h none none).originalPositionFor 1 0).1.source
      OptIn.none t

theorem replNodeLoop_in : ∀ {rs : List Repl} {st st' : List SmNode}, NodesIn D st →
    replNodeLoop st rs = .ok st' → NodesIn D st'
  | [], _, _, h, e => by cases e; exact h
  | r :: rs, [], _, _, e => by cases e
  | r :: rs, rem :: st, st', h, e => by
    simp only [replNodeLoop] at e
    split at e
    · rename_i l1 r1 e1
      have h1 := (splitSm_in (pos := r.stop) h.head).1 _ _ e1
      split at e
      · rename_i l2 r2 e2
        have h2 := (splitSm_in (pos := r.start) h1.1).1 _ _ e2
        split at e
        · cases e
        · exact replNodeLoop_in (.cons h2.1 (.cons (replacementNode_in h2.2 ‹_›)
            (.cons h1.2 h.tail))) e
      · rename_i l1' e2
        have h2 := (splitSm_in (pos := r.start) h1.1).2 _ _ e2
        split at e
        · cases e
        · exact replNodeLoop_in (.cons h2 (.cons (replacementNode_in h1.2 ‹_›)
            (.cons h1.2 h.tail))) e
    · rename_i rem' e1
      have h1 := (splitSm_in (pos := r.stop) h.head).2 _ _ e1
      split at e
      · rename_i l2 r2 e2
        have h2 := (splitSm_in (pos := r.start) h1).1 _ _ e2
        split at e
        · cases e
        · exact replNodeLoop_in (.cons h2.1 (.cons (replacementNode_in h2.2 ‹_›) h.tail)) e
      · rename_i rem'' e2
        have h2 := (splitSm_in (pos := r.start) h1).2 _ _ e2
        exact replNodeLoop_in (.cons h2 (.cons (.str _) h.tail)) e

theorem replaceNode_in {inner n : SmNode} (h : inner.In D) {rs : List Repl}
    (e : replaceNode inner rs = .ok n) : n.In D := by
  simp only [replaceNode] at e
  split at e
  · cases e
  · cases e
    exact mkVec_in (replNodeLoop_in (NodesIn.one h) ‹_›)

/-! ## List maps -/

/-- The source and the content of a node are related. -/
def LNode.Has (Q : Option Int → Option Int → Prop) : LNode → Prop
  | .source n => Q n.source n.original
  | .single n => Q n.source n.original
  | _ => True

def SlmHas (Q : Option Int → Option Int → Prop) (m : Slm) : Prop := ∀ n ∈ m, n.Has Q

variable {Q : Option Int → Option Int → Prop}

theorem SlmHas.append {a b : Slm} (ha : SlmHas Q a) (hb : SlmHas Q b) :
    SlmHas Q (a ++ b) := fun c hc => (List.mem_append.1 hc).elim (ha c) (hb c)

theorem SlmHas.one {a : LNode} (h : a.Has Q) : SlmHas Q [a] := fun c hc => by
  cases List.mem_singleton.1 hc; exact h

theorem SlmHas.nil : SlmHas Q [] := fun c hc => by cases hc

theorem SlmHas.cons {a : LNode} {l : Slm} (h : a.Has Q) (hl : SlmHas Q l) :
    SlmHas Q (a :: l) := SlmHas.append (SlmHas.one h) hl

theorem SlmHas.head {a : LNode} {l : Slm} (h : SlmHas Q (a :: l)) : a.Has Q :=
  h a (List.mem_cons_self ..)

theorem SlmHas.tail {a : LNode} {l : Slm} (h : SlmHas Q (a :: l)) : SlmHas Q l :=
  fun c hc => h c (List.mem_cons_of_mem _ hc)

theorem slmAddStr_in {m : Slm} (h : SlmHas Q m) {s : Str} {src o : Option Int} (hs : Q src o) : SlmHas Q (slmAddStr m s src o) := by
  simp only [slmAddStr]
  split
  · exact h.append (SlmHas.one hs)
  · split
    · exact SlmHas.append (fun n hn => h n (List.dropLast_subset m hn)) (SlmHas.one trivial)
    · exact h.append (SlmHas.one trivial)

theorem normLines_in {src o : Option Int} (hs : Q src o) (b : Bool) :
    ∀ {ls : List Str} {cur : Nat}, SlmHas Q (normLines src o b cur ls)
  | [], _ => SlmHas.nil
  | [l], cur => by
    simp only [normLines]
    split
    · exact SlmHas.nil
    · exact SlmHas.one hs
  | l :: l' :: ls, cur => by
    simp only [normLines]
    exact SlmHas.cons hs (normLines_in hs b)

theorem normalized_in {n : LNode} (h : n.Has Q) : SlmHas Q n.normalized := by
  cases n with
  | code s => exact SlmHas.one trivial
  | source n => exact normLines_in h _
  | single n => exact SlmHas.one h
  | str _ | map _ | idx _ => exact SlmHas.nil

theorem merge_in {a b m : LNode} (ha : a.Has Q) (hb : b.Has Q) (e : a.merge b = some m) : m.Has Q := by
  cases a <;> cases b <;> simp only [LNode.merge, reduceCtorEq] at e
  · cases e; trivial
  · simp only [Option.map_eq_some_iff, LSource.mergeSource] at e
    obtain ⟨x, e, rfl⟩ := e
    split at e
    · cases e; exact ha
    · cases e
  · simp only [Option.map_eq_some_iff, LSource.mergeSingle] at e
    obtain ⟨x, e, rfl⟩ := e
    split at e
    · cases e; exact ha
    · cases e
  · simp only [LSingle.mergeSingle] at e
    split at e
    · split at e
      · cases e; exact ha
      · split at e
        · cases e; exact ha
        · cases e
    · cases e

theorem mapCode_in {σ : Type _} {f : σ → Str → Str × σ} {st : σ} {n : LNode} (h : n.Has Q) :
    ∀ m, (n.mapCode f st).1 = some m → m.Has Q := by
  intro m e
  cases n <;> simp only [LNode.mapCode, reduceCtorEq] at e
  · cases e; trivial
  · cases e; exact h

theorem pushMerge_in {rev : List LNode} (h : SlmHas Q rev) {o : Option LNode}
    (ho : ∀ m, o = some m → m.Has Q) : SlmHas Q (pushMerge rev o) := by
  cases o with
  | none => exact h
  | some n =>
    cases rev with
    | nil => exact SlmHas.one (ho n rfl)
    | cons last rest =>
      simp only [pushMerge]
      split
      · exact SlmHas.cons (merge_in h.head (ho n rfl) ‹_›) h.tail
      · exact SlmHas.cons (ho n rfl) h

theorem mapLoop_in {σ : Type _} {f : σ → Str → Str × σ} : ∀ {ns : List LNode} {st : σ}
    {rev : List LNode}, SlmHas Q rev → SlmHas Q ns → SlmHas Q (mapLoop f st rev ns).1
  | [], _, _, h, _ => h
  | n :: ns, st, rev, h, hn => by
    simp only [mapLoop]
    exact mapLoop_in (pushMerge_in h (mapCode_in hn.head)) hn.tail

theorem slmMapGenerated_in {σ : Type _} {f : σ → Str → Str × σ} {st : σ} {m : Slm} (h : SlmHas Q m) :
    SlmHas Q (slmMapGenerated f st m).1 := by
  simp only [slmMapGenerated]
  have : SlmHas Q (m.map LNode.normalized).flatten := by
    intro n hn
    obtain ⟨l, hl, hn⟩ := List.mem_flatten.1 hn
    obtain ⟨x, hx, rfl⟩ := List.mem_map.1 hl
    exact normalized_in (h x hx) n hn
  intro n hn
  exact mapLoop_in SlmHas.nil this n (List.mem_reverse.1 hn)

theorem prefixListMap_in {p : Str} {m : Slm} (h : SlmHas Q m) : SlmHas Q (prefixListMap p m) :=
  slmMapGenerated_in h

theorem replaceListMap_in {m : Slm} (hq : Q none none) (h : SlmHas Q m) (rs : List Repl) :
    SlmHas Q (replaceListMap m rs) := by
  have := slmMapGenerated_in (f := rmMap) (st := { cur := 0, pending := rs.reverse, remove := 0 }) h
  simp only [replaceListMap]
  split
  · exact this
  · exact slmAddStr_in this hq

theorem concatMaps_in (hq : Q none none) : ∀ {ms : List (Str ⊕ Slm)} {m : Slm}, SlmHas Q m →
    (∀ x ∈ ms, ∀ c, x = .inr c → SlmHas Q c) → SlmHas Q (concatMaps m ms)
  | [], _, h, _ => h
  | .inl s :: ms, m, h, hm => by
    simp only [concatMaps]
    exact concatMaps_in hq (slmAddStr_in h hq)
      (fun x hx => hm x (List.mem_cons_of_mem _ hx))
  | .inr c :: ms, m, h, hm => by
    simp only [concatMaps]
    exact concatMaps_in hq (h.append (hm _ (List.mem_cons_self ..) c rfl))
      (fun x hx => hm x (List.mem_cons_of_mem _ hx))

theorem lfAddCode_in {st : LfState} (h : SlmHas Q st.rev) (code : Str) :
    SlmHas Q (lfAddCode st code).rev := by
  simp only [lfAddCode]
  split
  · rename_i e; rw [e] at h; exact SlmHas.cons trivial h.tail
  · rename_i e
    split
    · rw [e] at h; exact SlmHas.cons (a := .source _) h.head h.tail
    · exact SlmHas.cons trivial h
  · exact SlmHas.cons trivial h

theorem lfAddSource_in {st : LfState} (h : SlmHas Q st.rev) (code : Str) {src o : Option Int}
    (hs : Q src o) (line : Nat) :
    SlmHas Q (lfAddSource st code src o line).rev := by
  simp only [lfAddSource]
  split
  · rename_i e
    split
    · rw [e] at h; exact SlmHas.cons (a := .source _) h.head h.tail
    · exact SlmHas.cons (a := .source _) hs h
  · exact SlmHas.cons (a := .source _) hs h

theorem lfSegment_in {ss cs : List Int} (hs : ∀ i : Nat, Q ss[i]? cs[i]?) {line : Str}
    {added added' : Bool} {st st' : LfState} {rest rest' : Str} (h : SlmHas Q st.rev)
    (e : lfSegment ss cs line added st rest = .ok (rest', added', st')) : SlmHas Q st'.rev := by
  simp only [lfSegment] at e
  split at e
  · cases e
  · cases e; exact h
  · split at e
    · cases e; exact h
    · split at e
      · cases e
      · split at e
        · cases e
        · split at e
          · cases e; exact h
          · cases e
            refine lfAddSource_in ?_ line (hs _) _
            exact h

theorem lfSegments_in {ss cs : List Int} (hs : ∀ i : Nat, Q ss[i]? cs[i]?) {line : Str} :
    ∀ {n : Nat} {added added' : Bool} {st st' : LfState} {rest : Str}, SlmHas Q st.rev →
    lfSegments ss cs line n added st rest = .ok (added', st') → SlmHas Q st'.rev
  | n, _, _, _, _, [], h, e => by cases n <;> (cases e; exact h)
  | 0, _, _, _, _, _ :: _, _, e => by cases e
  | n + 1, added, added', st, st', c :: rest, h, e => by
    simp only [lfSegments] at e
    split at e
    · cases e
    · exact lfSegments_in hs (lfSegment_in hs h ‹_›) e

theorem lfLine_in {ss cs : List Int} (hs : ∀ i : Nat, Q ss[i]? cs[i]?)
    {st st' : LfState} {l m : Str} (h : SlmHas Q st.rev) (e : lfLine ss cs st l m = .ok st') :
    SlmHas Q st'.rev := by
  simp only [lfLine] at e
  split at e
  · cases e; exact lfAddCode_in h l
  · split at e
    · cases e
    · rename_i added st1 e1
      have h1 := lfSegments_in hs h e1
      cases e
      split
      · exact h1
      · exact lfAddCode_in h1 l

theorem lfLines_in {ss cs : List Int} (hs : ∀ i : Nat, Q ss[i]? cs[i]?) :
    ∀ {ms ls ls' : List Str} {st st' : LfState}, SlmHas Q st.rev →
    lfLines ss cs st ls ms = .ok (st', ls') → SlmHas Q st'.rev
  | [], ls, _, _, _, h, e => by cases ls <;> (cases e; exact h)
  | m :: ms, [], _, _, _, h, e => by
    simp only [lfLines] at e
    exact lfLines_in hs h e
  | m :: ms, l :: ls, _, _, _, h, e => by
    simp only [lfLines] at e
    split at e
    · cases e
    · exact lfLines_in hs (lfLine_in hs h ‹_›) e

theorem lfRest_in : ∀ {ls : List Str} {st : LfState}, SlmHas Q st.rev → SlmHas Q (lfRest st ls).rev
  | [], _, h => h
  | l :: ls, st, h => by
    simp only [lfRest]
    split
    · exact lfRest_in (lfAddCode_in h l)
    · exact lfAddCode_in h _

theorem slmFromString_in {code : Str} {ss cs : List Int} {mp : Str} {m : Slm}
    (hs : ∀ i : Nat, Q ss[i]? cs[i]?) (e : slmFromString code ss cs mp = .ok m) :
    SlmHas Q m := by
  simp only [slmFromString] at e
  split at e
  · cases e
  · cases e
    intro n hn
    exact lfRest_in (lfLines_in hs SlmHas.nil ‹_›) n (List.mem_reverse.1 hn)

/-- Rendering keeps the sources with their contents. -/
theorem slmMappings_has : ∀ {m : Slm} {c : MapCtx}, SlmHas Q m →
    (∀ p ∈ c.sources, Q p.1 p.2.2) → ∀ p ∈ (slmMappings c m).2.sources, Q p.1 p.2.2
  | [], _, _, hc => hc
  | n :: ns, c, hm, hc => by
    have ens : ∀ (s o : Option Int), Q s o → ∀ p ∈ (c.ensureSource s o).2.sources, Q p.1 p.2.2 := by
      intro s o hs p hp
      simp only [MapCtx.ensureSource] at hp
      split at hp
      · exact hc p hp
      · rcases List.mem_append.1 hp with hp | hp
        · exact hc p hp
        · cases List.mem_singleton.1 hp
          exact hs
    have step : ∀ p ∈ (n.mappings c).2.sources, Q p.1 p.2.2 := by
      have hn := hm.head
      cases n with
      | code s =>
        simp only [LNode.mappings, codeMappings]
        split <;> exact hc
      | source n =>
        simp only [LNode.mappings, LSource.mappings]
        split
        · exact hc
        · exact ens _ _ hn
      | single n =>
        simp only [LNode.mappings, LSingle.mappings]
        split
        · exact hc
        · exact ens _ _ hn
      | str _ | map _ | idx _ => exact hc
    simp only [slmMappings]
    exact slmMappings_has hm.tail step

/-- Sources and contents within the sets. -/
def Dom.Pair (D : Dom) (s o : Option Int) : Prop := OptIn D.S s ∧ OptIn D.C o

abbrev SlmIn (D : Dom) (m : Slm) : Prop := SlmHas D.Pair m

theorem Dom.Pair.none : D.Pair none none := ⟨OptIn.none, OptIn.none⟩

/-- Rendering: a node without a source is listed under the index `-1`. -/
theorem slmToStringWithSourceMap_in {m : Slm} (h : SlmIn D m) (h1 : D.S (-1)) (file : Option Int) :
    (slmToStringWithSourceMap m file).map.In D := by
  have := slmMappings_has (c := MapCtx.new) h (by simp [MapCtx.new])
  refine ⟨?_, ?_, by simp [slmToStringWithSourceMap]⟩
  · intro s hs
    simp only [slmToStringWithSourceMap] at hs
    obtain ⟨p, hp, rfl⟩ := List.mem_map.1 hs
    cases e : p.1 with
    | none => exact h1
    | some s => exact (this p hp).1 s e
  · intro s hs
    simp only [slmToStringWithSourceMap] at hs
    obtain ⟨p, hp, e⟩ := List.mem_filterMap.1 hs
    exact (this p hp).2 s e

/-! ## Objects -/

structure SmData.In (D : Dom) (d : SmData) : Prop where
  sources : ∀ s ∈ d.sources, D.S s
  contents : ∀ c ∈ d.contents, D.C c
  names : ∀ n ∈ d.names, D.N n

structure SmHolder.In (D : Dom) (h : SmHolder) : Prop where
  data : ∀ d, h.data = some d → d.In D
  gen : ∀ g, h.gen = some g → g.In D

structure Sms.In (D : Dom) (s : Sms) : Prop where
  value : D.C s.valueIdx
  name : D.S s.name
  map : s.map.In D
  original : OptIn D.C s.original
  inner : ∀ i, s.inner = some i → i.In D

def Obj.In (D : Dom) : Obj → Prop
  | .original _ n v => D.S n ∧ D.C v
  | .l2l _ n o => D.S n ∧ D.C o
  | .sms s => s.In D
  | _ => True

/-- Every object has the property. -/
def Heap.All (K : Obj → Prop) (h : Heap) : Prop := ∀ (i : Nat) (o : Obj), h[i]? = some o → K o

abbrev Heap.In (D : Dom) (h : Heap) : Prop := Heap.All (Obj.In D) h

theorem SmHolder.In.getData {h h' : SmHolder} (H : h.In D) {d : SmData}
    (e : h.getData = .ok (d, h')) : d.In D ∧ h'.In D := by
  simp only [SmHolder.getData] at e
  split at e
  · cases e; exact ⟨H.data _ ‹_›, H⟩
  · split at e
    · cases e
    · split at e
      · cases e
      · rename_i m g' e1
        have := (H.gen _ ‹_›).toSourceMap e1
        cases e
        have hd : SmData.In D ⟨m.sources, m.sourcesContent, m.names, m.mappings⟩ :=
          ⟨this.1.sources, this.1.contents, this.1.names⟩
        exact ⟨hd, fun d hd' => by cases hd'; exact hd, fun g hg => by cases hg; exact this.2⟩

theorem SmHolder.In.getGen {h h' : SmHolder} (H : h.In D) {g : Generator}
    (e : h.getGen = .ok (g, h')) : g.In D ∧ h'.In D := by
  simp only [SmHolder.getGen] at e
  split at e
  · cases e; exact ⟨H.gen _ ‹_›, H⟩
  · split at e
    · cases e
    · split at e
      · cases e
      · rename_i d hd _ g' e1
        have hd := H.data _ hd
        have := fromSourceMap_in hd.sources hd.contents hd.names e1
        cases e
        exact ⟨this, H.data, fun g hg => by cases hg; exact this⟩

theorem Sms.In.node {s s' : Sms} (H : s.In D) {n : SmNode} (e : s.node = .ok (n, s')) :
    n.In D ∧ s'.In D := by
  simp only [Sms.node] at e
  split at e
  · cases e
  · rename_i g mp e1
    have h1 := H.map.getGen e1
    split at e
    · rename_i ei
      split at e
      · cases e
      · cases e
        exact ⟨fromStringWithGenerator_in h1.1 ‹_›, H.value, H.name, h1.2, H.original, H.inner⟩
    · rename_i ih ei
      split at e
      · cases e
      · rename_i ig ih' e2
        have h2 := (H.inner _ ei).getGen e2
        split at e
        · cases e
        · rename_i g' ig' e3
          have hg : (if s.original.isSome then g.setSourceContent s.name s.original else g).In D := by
            split
            · exact h1.1.setSourceContent H.original
            · exact h1.1
          have h3 : g'.In D ∧ ig'.In D := by
            split at e3
            · cases e3; exact ⟨hg, h2.1⟩
            · exact hg.applySourceMap h2.1 e3
          split at e
          · cases e
          · cases e
            refine ⟨fromStringWithGenerator_in h3.1 ‹_›, H.value, H.name,
              ⟨h1.2.data, fun g hg => by cases hg; exact h3.1⟩, H.original, ?_⟩
            intro i hi
            cases hi
            exact ⟨h2.2.data, fun g hg => by cases hg; exact h3.2⟩

theorem Sms.In.listMap {s s' : Sms} (H : s.In D) {b : Bool} {m : Slm}
    (e : s.listMap b = .ok (m, s')) : SlmIn D m ∧ s'.In D := by
  simp only [Sms.listMap] at e
  split at e
  · cases e
    exact ⟨slmAddStr_in SlmHas.nil ⟨.some H.name, .some H.value⟩, H⟩
  · split at e
    · cases e
    · rename_i d mp e1
      have h1 := H.map.getData e1
      split at e
      · cases e
      · cases e
        exact ⟨slmFromString_in (fun i => ⟨OptIn.get h1.1.sources, OptIn.get h1.1.contents⟩) ‹_›, H.value, H.name, h1.2, H.original,
          H.inner⟩

variable {K : Obj → Prop}

theorem Heap.All.set {h : Heap} (H : Heap.All K h) {i : Nat} {o : Obj} (ho : K o) :
    Heap.All K (h.set i o) := by
  intro j o' e
  rw [List.getElem?_set] at e
  split at e
  · split at e
    · cases e; exact ho
    · cases e
  · exact H j o' e

theorem Heap.All.push {h : Heap} (H : Heap.All K h) {o : Obj} (ho : K o) :
    Heap.All K (h ++ [o]) := by
  intro j o' e
  rcases List.mem_append.1 (List.mem_of_getElem? e) with hm | hm
  · obtain ⟨k, hk⟩ := List.mem_iff_getElem?.1 hm
    exact H k o' hk
  · cases List.mem_singleton.1 hm
    exact ho

theorem eachChild_all {α : Type _} {f : Heap → Src → M (α × Heap)} {P : α → Prop} :
    ∀ {cs : List Src}, (∀ c ∈ cs, ∀ h a h', Heap.All K h → f h c = .ok (a, h') → P a ∧ Heap.All K h') →
    ∀ {h h' : Heap} {as : List α}, Heap.All K h →
    eachChild f h cs = .ok (as, h') → (∀ a ∈ as, P a) ∧ Heap.All K h'
  | [], _, h, h', as, H, e => by cases e; exact ⟨by simp, H⟩
  | c :: cs, hf, h, h', as, H, e => by
    simp only [eachChild] at e
    split at e
    · cases e
    · rename_i a h1 e1
      have h1 := hf c (List.mem_cons_self ..) _ _ _ H e1
      split at e
      · cases e
      · rename_i as' h2 e2
        have h2 := eachChild_all (fun c hc => hf c (List.mem_cons_of_mem _ hc)) h1.2 e2
        cases e
        refine ⟨fun x hx => ?_, h2.2⟩
        rcases List.mem_cons.1 hx with rfl | hx
        · exact h1.1
        · exact h2.1 x hx

theorem hSource_all (hK : ∀ c rs b c' rs' b', K (.replace c rs b) → K (.replace c' rs' b')) (fuel : Nat) : ∀ (h : Heap) (busy : List Nat) (c : Src) (s : Str) (h' : Heap),
    Heap.All K h → hSource fuel h busy c = .ok (s, h') → Heap.All K h' := by
  induction fuel with
  | zero => intro h busy c s h' _ e; cases c <;> cases e
  | succ fuel ih =>
    intro h busy c s h' H e
    cases c with
    | str s => cases e; exact H
    | ref i =>
      simp only [hSource] at e
      split at e
      · cases e
      · split at e
        · cases e
        · cases e; exact H
        · cases e; exact H
        · cases e; exact H
        · cases e; exact H
        · split at e
          · cases e
          · cases e; exact ih _ _ _ _ _ H ‹_›
        · split at e
          · cases e
          · rename_i s1 h1 e1
            have h1 := ih _ _ _ _ _ H e1
            split at e
            · cases e
            · cases e; exact h1.set (hK _ _ _ _ _ _ (H i _ ‹_›))
        · split at e
          · cases e
          · rename_i e1
            cases e
            exact (eachChild_all (P := fun _ => True)
              (fun c _ h a h' H e => ⟨trivial, ih _ _ _ _ _ H e⟩) H e1).2

theorem hSize_all (hK : ∀ c rs b c' rs' b', K (.replace c rs b) → K (.replace c' rs' b')) (fuel : Nat) : ∀ (h : Heap) (busy : List Nat) (c : Src) (s : Nat) (h' : Heap),
    Heap.All K h → hSize fuel h busy c = .ok (s, h') → Heap.All K h' := by
  induction fuel with
  | zero => intro h busy c s h' _ e; cases c <;> cases e
  | succ fuel ih =>
    intro h busy c s h' H e
    cases c with
    | str s => cases e; exact H
    | ref i =>
      simp only [hSize] at e
      split at e
      · cases e
      · split at e
        · cases e
        · cases e; exact H
        · cases e; exact H
        · cases e; exact H
        · cases e; exact H
        · split at e
          · cases e
          · cases e; exact hSource_all hK _ _ _ _ _ _ H ‹_›
        · split at e
          · cases e
          · cases e; exact hSource_all hK _ _ _ _ _ _ H ‹_›
        · split at e
          · cases e
          · rename_i e1
            cases e
            exact (eachChild_all (P := fun _ => True)
              (fun c _ h a h' H e => ⟨trivial, ih _ _ _ _ _ H e⟩) H e1).2

theorem hNode_in (cols mod : Bool) (fuel : Nat) : ∀ (h : Heap) (busy : List Nat) (c : Src)
    (n : SmNode) (h' : Heap), Heap.In D h → hNode cols mod fuel h busy c = .ok (n, h') →
    n.In D ∧ Heap.In D h' := by
  induction fuel with
  | zero => intro h busy c s h' _ e; cases c <;> cases e
  | succ fuel ih =>
    intro h busy c n h' H e
    cases c with
    | str s => cases e
    | ref i =>
      simp only [hNode] at e
      split at e
      · cases e
      · split at e
        · cases e
        · cases e; exact ⟨rawNode_in _, H⟩
        · rename_i eo
          have ho := H _ _ eo
          cases e; exact ⟨originalNode_in ho.1 ho.2, H⟩
        · rename_i eo
          have ho := H _ _ eo
          cases e; exact ⟨l2lNode_in ho.1 ho.2, H⟩
        · rename_i eo
          have ho : Sms.In D _ := H _ _ eo
          split at e
          · cases e
          · rename_i e1
            have := ho.node e1
            cases e
            exact ⟨this.1, H.set (o := .sms _) this.2⟩
        · split at e
          · cases e
          · rename_i e1
            have := ih _ _ _ _ _ H e1
            cases e
            exact ⟨prefixNode_in this.1, this.2⟩
        · split at e
          · cases e
          · rename_i e1
            have := ih _ _ _ _ _ (H.set (by exact trivial)) e1
            split at e
            · cases e
            · cases e
              exact ⟨replaceNode_in this.1 ‹_›, this.2⟩
        · split at e
          · cases e
          · rename_i e1
            have := eachChild_all (P := fun n : SmNode => n.In D) (fun c _ h a h' H e => by
              cases c with
              | str s => cases e; exact ⟨.str s, H⟩
              | ref j => exact ih _ _ _ _ _ H e) H e1
            cases e
            exact ⟨mkVec_in this.1, this.2⟩

theorem hListMap_in (cols mod : Bool) (fuel : Nat) : ∀ (h : Heap) (busy : List Nat) (c : Src)
    (m : Slm) (h' : Heap), Heap.In D h → hListMap cols mod fuel h busy c = .ok (m, h') →
    SlmIn D m ∧ Heap.In D h' := by
  induction fuel with
  | zero => intro h busy c s h' _ e; cases c <;> cases e
  | succ fuel ih =>
    intro h busy c n h' H e
    cases c with
    | str s => cases e
    | ref i =>
      simp only [hListMap] at e
      split at e
      · cases e
      · split at e
        · cases e
        · cases e; exact ⟨slmAddStr_in SlmHas.nil Dom.Pair.none, H⟩
        · rename_i eo
          have ho := H _ _ eo
          cases e; exact ⟨slmAddStr_in (Q := D.Pair) SlmHas.nil ⟨.some ho.1, .some ho.2⟩, H⟩
        · rename_i eo
          have ho := H _ _ eo
          cases e; exact ⟨slmAddStr_in (Q := D.Pair) SlmHas.nil ⟨.some ho.1, .some ho.2⟩, H⟩
        · rename_i eo
          have ho : Sms.In D _ := H _ _ eo
          split at e
          · cases e
          · rename_i e1
            have := ho.listMap e1
            cases e
            exact ⟨this.1, H.set (o := .sms _) this.2⟩
        · split at e
          · cases e
          · rename_i e1
            have := ih _ _ _ _ _ H e1
            cases e
            exact ⟨prefixListMap_in this.1, this.2⟩
        · split at e
          · cases e
          · rename_i e1
            have := ih _ _ _ _ _ (H.set (by exact trivial)) e1
            cases e
            exact ⟨replaceListMap_in Dom.Pair.none this.1 _, this.2⟩
        · split at e
          · cases e
          · rename_i e1
            have := eachChild_all (P := fun x : Str ⊕ Slm => ∀ c, x = .inr c → SlmIn D c)
              (fun c _ h a h' H e => by
                cases c with
                | str s => cases e; exact ⟨fun c hc => (by cases hc), H⟩
                | ref j =>
                  dsimp only at e
                  split at e
                  · cases e
                  · rename_i e2
                    have := ih _ _ _ _ _ H e2
                    cases e
                    exact ⟨fun c hc => by cases hc; exact this.1, this.2⟩) H e1
            cases e
            exact ⟨concatMaps_in Dom.Pair.none SlmHas.nil this.1, this.2⟩

/-- The indices in the arguments of a call. -/
def Op.In (D : Dom) : Op → Prop
  | .newOriginal _ n v => D.S n ∧ D.C v
  | .newL2l _ n o => D.S n ∧ D.C o
  | .newSms _ v n m o i => D.C v ∧ D.S n ∧ m.In D ∧ OptIn D.C o ∧ ∀ x, i = some x → x.In D
  | _ => True

/-- The indices in an answer. -/
def Answer.In (D : Dom) : Answer → Prop
  | .node n => n.In D
  | .listMap m => SlmIn D m
  | _ => True

theorem Op.run_in {op : Op} {h h' : Heap} {a : Answer} (H : Heap.In D h) (ho : op.In D)
    (e : op.run h = .ok (a, h')) : a.In D ∧ Heap.In D h' := by
  cases op <;> simp only [Op.run, Except.map_ok_iff] at e
  case newRaw => cases e; exact ⟨trivial, H.push trivial⟩
  case newOriginal => cases e; exact ⟨trivial, H.push ho⟩
  case newL2l => cases e; exact ⟨trivial, H.push ho⟩
  case newSms =>
    cases e
    exact ⟨trivial, H.push (o := .sms _) ⟨ho.1, ho.2.1, ho.2.2.1, ho.2.2.2.1, ho.2.2.2.2⟩⟩
  case newPrefix =>
    split at e
    · cases e; exact ⟨trivial, H.push trivial⟩
    · cases e
  case newReplace =>
    split at e
    · cases e; exact ⟨trivial, H.push trivial⟩
    · cases e
  case newConcat => cases e; exact ⟨trivial, H.push trivial⟩
  case add =>
    obtain ⟨h1, e, e'⟩ := e
    cases e'
    simp only [hAdd] at e
    split at e
    · split at e
      · cases e; exact ⟨trivial, H.set trivial⟩
      · split at e
        · cases e
        · split at e
          · cases e
          · cases e; exact ⟨trivial, H.set trivial⟩
        · cases e; exact ⟨trivial, H.set trivial⟩
    · cases e
  case replace =>
    obtain ⟨h1, e, e'⟩ := e
    cases e'
    simp only [hReplace] at e
    split at e
    · cases e; exact ⟨trivial, H.set trivial⟩
    · cases e
  case insert =>
    obtain ⟨h1, e, e'⟩ := e
    cases e'
    simp only [hInsert] at e
    split at e
    · cases e; exact ⟨trivial, H.set trivial⟩
    · cases e
  case source =>
    obtain ⟨⟨s, h1⟩, e, e'⟩ := e
    cases e'
    exact ⟨trivial, hSource_all (fun _ _ _ _ _ _ _ => trivial) _ _ _ _ _ _ H e⟩
  case size =>
    obtain ⟨⟨s, h1⟩, e, e'⟩ := e
    cases e'
    exact ⟨trivial, hSize_all (fun _ _ _ _ _ _ _ => trivial) _ _ _ _ _ _ H e⟩
  case node =>
    obtain ⟨⟨s, h1⟩, e, e'⟩ := e
    cases e'
    exact hNode_in _ _ _ _ _ _ _ _ H e
  case listMap =>
    obtain ⟨⟨s, h1⟩, e, e'⟩ := e
    cases e'
    exact hListMap_in _ _ _ _ _ _ _ _ H e

theorem runFrom_in {ops : List Op} : ∀ {h h' : Heap}, Heap.In D h → (∀ op ∈ ops, op.In D) →
    runFrom h ops = .ok h' → Heap.In D h' := by
  induction ops with
  | nil => intro h h' H _ e; cases e; exact H
  | cons op ops ih =>
    intro h h' H ho e
    simp only [runFrom] at e
    split at e
    · cases e
    · exact ih (Op.run_in H (ho op (List.mem_cons_self ..)) ‹_›).2
        (fun x hx => ho x (List.mem_cons_of_mem _ hx)) e

end WS
