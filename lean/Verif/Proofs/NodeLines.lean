import Verif.Proofs.Within
import Verif.Props.C22
/-! # The original lines in nodes and generators

Every original line a program can bring into a node or a generator counts from 1 and fits the 32-bit
`usize` of wasm: `parse_mappings` refuses larger numbers, and `OriginalSource` and
`LineToLineMappedSource` number the lines of a text. -/

namespace WS
open Spec

/-- A line number that counts from 1 and fits. -/
def Spec.LineIn (n : Nat) : Prop := 1 ≤ n ∧ n ≤ 4294967296

/-- The same of an optional position. -/
def PosIn (p : Option (Nat × Nat)) : Prop := ∀ x, p = some x → LineIn x.1

theorem PosIn.none : PosIn none := fun _ h => by cases h

def Mapping.Lined (m : Mapping) : Prop := PosIn m.original

/-- All original lines of a generator fit. -/
def _root_.WS.Generator.Lined (g : Generator) : Prop := ∀ m ∈ g.mappings.list, m.Lined

theorem Generator.new_lined (file : Option Int) (root : Option Str) (b : Bool) :
    (Generator.new file root b).Lined := by intro m hm; cases hm

theorem Generator.addMapping_maps (g : Generator) (m : Mapping) :
    (g.addMapping m).mappings = g.mappings.add m := by
  unfold Generator.addMapping
  dsimp only
  cases m.name <;> cases m.source <;> rfl

theorem Generator.Lined.addMapping {g : Generator} (h : g.Lined) {m : Mapping} (hm : m.Lined) :
    (g.addMapping m).Lined := by
  intro x hx
  rw [Generator.addMapping_maps] at hx
  rcases MappingList.add_mem hx with hx | rfl
  · exact h x hx
  · exact hm

theorem Generator.Lined.setSourceContent {g : Generator} (h : g.Lined) (s : Int) (c : Option Int) :
    (g.setSourceContent s c).Lined := by
  intro m hm
  rw [(Generator.setContent_fields g s c).2.2] at hm
  exact h m hm

theorem Generator.Lined.sort {g : Generator} (h : g.Lined) :
    Generator.Lined { g with mappings := g.mappings.sort } :=
  fun m hm => h m (MappingList.sort_mem hm)

theorem Generator.Lined.toSourceMap {g g' : Generator} (h : g.Lined) {m : SourceMap}
    (e : g.toSourceMap = .ok (m, g')) : g'.Lined := by
  simp only [Generator.toSourceMap, Generator.serializeMappings] at e
  split at e
  · cases e
  · rename_i e1
    cases e
    split at e1
    · cases e1; exact h.sort
    · cases e1

theorem originalPositionIn_lined {l : List Mapping} (h : ∀ m ∈ l, m.Lined) (line col : Nat) :
    (originalPositionIn l line col).Lined := by
  rcases originalPositionIn_mem (l := l) (line := line) (col := col) with e | e
  · rw [e]; exact PosIn.none
  · exact h _ e

theorem applyOne_lined {file : Option Int} {inner : Generator} (hi : inner.Lined) {m : Mapping}
    (hm : m.Lined) : (applyOne file inner m).1.Lined ∧ (applyOne file inner m).2.Lined := by
  simp only [applyOne]
  split
  · exact ⟨hm, hi⟩
  · rename_i line col _
    split
    · have h1 : (inner.originalPositionFor line col).1.Lined := originalPositionIn_lined hi.sort line col
      have h2 : (inner.originalPositionFor line col).2.Lined := hi.sort
      split
      · exact ⟨h1, h2⟩
      · exact ⟨hm, h2⟩
    · exact ⟨hm, hi⟩

theorem applyLoop_lined {file : Option Int} (l : List Mapping) : ∀ {inner : Generator}, inner.Lined →
    (∀ m ∈ l, m.Lined) →
    (∀ m ∈ (applyLoop file inner l).1, m.Lined) ∧ (applyLoop file inner l).2.Lined := by
  induction l with
  | nil => intro inner hi _; exact ⟨by simp [applyLoop], hi⟩
  | cons m l ih =>
    intro inner hi hl
    have h1 := applyOne_lined (file := file) hi (hl m (List.mem_cons_self ..))
    have h2 := ih h1.2 (fun x hx => hl x (List.mem_cons_of_mem _ hx))
    simp only [applyLoop]
    refine ⟨fun x hx => ?_, h2.2⟩
    rcases List.mem_cons.1 hx with rfl | hx
    · exact h1.1
    · exact h2.1 x hx

theorem Generator.Lined.applySourceMap {g g' inner inner' : Generator} {f : Option Int} (h : g.Lined)
    (hi : inner.Lined) (e : g.applySourceMap inner f = .ok (g', inner')) : g'.Lined ∧ inner'.Lined := by
  simp only [Generator.applySourceMap] at e
  split at e
  · cases e
  · rename_i file _
    have hl := applyLoop_lined (file := some file) g.mappings.setUnsorted.list hi
      (fun m hm => h m hm)
    generalize applyLoop (some file) inner g.mappings.setUnsorted.list = r at e hl
    obtain ⟨list, in'⟩ := r
    dsimp only at e hl
    cases e
    refine ⟨?_, hl.2⟩
    refine foldl_in (P := fun g : Generator => g.Lined)
      (fun g p hp hg => hg.setSourceContent _ _) ?_
    refine foldl_in (P := fun g : Generator => g.Lined) (f := Generator.addName) (fun g n hn hg => hg) ?_
    refine foldl_in (P := fun g : Generator => g.Lined) (f := Generator.addSource) (fun g n hn hg => hg) ?_
    exact hl.1

theorem registerSources_lined {b : Bool} : ∀ {ss cs : List Int} {g : Generator}, g.Lined →
    (registerSources b g ss cs).Lined
  | [], _, _, hg => hg
  | s :: ss, cs, g, hg => by
    simp only [registerSources]
    refine registerSources_lined (Generator.Lined.setSourceContent ?_ _ _)
    split
    · exact hg
    · exact hg

/-- Numbers read from a `mappings` string fit. -/
def Parsed.Lined (p : Parsed) : Prop := ∀ si ol oc ni, p.original = some (si, ol, oc, ni) → ol ≤ 4294967295

theorem readRel_le {prev n : Nat} {s r : Str} (h : readRel prev s = some (n, r)) : n ≤ 4294967295 := by
  unfold readRel at h
  split at h
  · cases h
  · dsimp only at h
    split at h
    · cases h
    · rename_i hn
      simp only [Option.some.injEq, Prod.mk.injEq] at h
      omega

theorem parseOne_lined {st st' : ParseState} {s rest : Str} {p : Parsed}
    (h : parseOne st s = some (p, st', rest)) : p.Lined := by
  unfold parseOne at h
  split at h
  · cases h
  · dsimp only at h
    split at h
    · cases h; intro _ _ _ _ e; cases e
    · split at h
      · cases h
      · split at h
        · cases h
        · rename_i hol
          split at h
          · cases h
          · split at h
            · cases h; intro _ _ _ _ e; cases e; exact readRel_le hol
            · split at h
              · cases h
              · cases h; intro _ _ _ _ e; cases e; exact readRel_le hol

theorem parseGo_lined : ∀ {fuel : Nat} {st : ParseState} {s : Str} {ps : List Parsed},
    parseGo fuel st s = some ps → ∀ p ∈ ps, p.Lined
  | fuel, st, [], ps, h => by
    have : ps = [] := by cases fuel <;> simpa [parseGo] using h.symm
    subst this; intro p hp; cases hp
  | 0, st, _ :: _, ps, h => by cases h
  | fuel + 1, st, c :: cs, ps, h => by
    rw [parseGo] at h
    split at h
    · exact parseGo_lined h
    · split at h
      · exact parseGo_lined h
      · split at h
        · cases h
        · rename_i h1
          split at h
          · cases h
          · rename_i h2
            cases h
            intro p hp
            rcases List.mem_cons.1 hp with rfl | hp
            · exact parseOne_lined h1
            · exact parseGo_lined h2 p hp

theorem parseMappings_lined {s : Str} {ps : List Parsed} (h : parseMappings s = some ps) :
    ∀ p ∈ ps, p.Lined := by
  unfold parseMappings at h
  split at h
  · cases h
  · rename_i qs hq
    cases h
    intro p hp
    exact parseGo_lined hq p ((sortBy_perm _).mem_iff.1 hp)

theorem resolveParsed_lined {ss ns : List Int} {p : Parsed} (hp : p.Lined) {m : Mapping}
    (e : resolveParsed ss ns p = .ok m) : m.Lined := by
  simp only [resolveParsed] at e
  split at e
  · cases e; exact PosIn.none
  · rename_i ho
    split at e
    · cases e
    · split at e
      · cases e
      · cases e
        intro x hx
        cases hx
        have := hp _ _ _ _ ho
        exact ⟨by dsimp only; omega, by dsimp only; omega⟩

theorem addParsed_lined {ss ns : List Int} : ∀ {ps : List Parsed} {g g' : Generator},
    (∀ p ∈ ps, p.Lined) → g.Lined → addParsed ss ns g ps = .ok g' → g'.Lined
  | [], _, _, _, hg, e => by cases e; exact hg
  | p :: ps, g, g', hp, hg, e => by
    simp only [addParsed] at e
    split at e
    · cases e
    · rename_i m em
      exact addParsed_lined (fun q hq => hp q (List.mem_cons_of_mem _ hq))
        (hg.addMapping (resolveParsed_lined (hp p (List.mem_cons_self ..)) em)) e

theorem fromSourceMap_lined {ss cs ns : List Int} {mp : Str} {file : Option Int} {root : Option Str}
    {b : Bool} {g : Generator} (e : Generator.fromSourceMap ss cs mp ns file root b = .ok g) :
    g.Lined := by
  simp only [Generator.fromSourceMap] at e
  split at e
  · cases e
  · rename_i hp
    exact addParsed_lined (parseMappings_lined hp) (registerSources_lined (Generator.new_lined _ _ _)) e

/-! ## Nodes -/

inductive SmNode.Lined : SmNode → Prop where
  | str (s : Str) : SmNode.Lined (.str s)
  | node {pos : Option (Nat × Nat)} {src name : Option Int} {cs : List (Int × Int)}
      {ch : List SmNode} : PosIn pos → (∀ c ∈ ch, SmNode.Lined c) →
      SmNode.Lined (.node pos src name cs ch)

def NodesLined (l : List SmNode) : Prop := ∀ c ∈ l, c.Lined

theorem NodesLined.append {a b : List SmNode} (ha : NodesLined a) (hb : NodesLined b) :
    NodesLined (a ++ b) := fun c hc => (List.mem_append.1 hc).elim (ha c) (hb c)

theorem NodesLined.one {a : SmNode} (h : a.Lined) : NodesLined [a] := fun c hc => by
  cases List.mem_singleton.1 hc; exact h

theorem NodesLined.nil : NodesLined [] := fun c hc => by cases hc

theorem NodesLined.cons {a : SmNode} {l : List SmNode} (h : a.Lined) (hl : NodesLined l) :
    NodesLined (a :: l) := NodesLined.append (NodesLined.one h) hl

theorem NodesLined.head {a : SmNode} {l : List SmNode} (h : NodesLined (a :: l)) : a.Lined :=
  h a (List.mem_cons_self ..)

theorem NodesLined.tail {a : SmNode} {l : List SmNode} (h : NodesLined (a :: l)) : NodesLined l :=
  fun c hc => h c (List.mem_cons_of_mem _ hc)

theorem originOf_lined {pos : Option (Nat × Nat)} {src name : Option Int} (h : PosIn pos) (s : Str) :
    LineOk (s, originOf pos src name) := by
  intro o ho
  cases pos with
  | none => cases ho
  | some p =>
    cases src with
    | none => cases ho
    | some x => cases ho; exact h p rfl

mutual
  theorem SmNode.Lined.leaves : ∀ {n : SmNode}, n.Lined → ∀ l ∈ n.leaves, LineOk l
    | .str s, _, l, hl => by
      simp only [SmNode.leaves, List.mem_singleton] at hl
      subst hl
      intro o ho; cases ho
    | .node pos src name cs ch, h, l, hl => by
      cases h with
      | node h1 h2 =>
        rw [SmNode.leaves] at hl
        exact lined_leavesList (originOf_lined h1) h2 l hl
  theorem lined_leavesList : ∀ {ch : List SmNode} {o : Option Origin}, (∀ s, LineOk (s, o)) →
      NodesLined ch → ∀ l ∈ SmNode.leavesList o ch, LineOk l
    | [], _, _, _, l, hl => by simp [SmNode.leavesList] at hl
    | .str s :: rest, o, ho, h, l, hl => by
      rw [SmNode.leavesList] at hl
      rcases List.mem_cons.1 hl with rfl | hl
      · exact ho s
      · exact lined_leavesList ho h.tail l hl
    | .node p s n cs ch :: rest, o, ho, h, l, hl => by
      rw [SmNode.leavesList] at hl
      rcases List.mem_append.1 hl with hl | hl
      · exact SmNode.Lined.leaves h.head l hl
      · exact lined_leavesList ho h.tail l hl
end

theorem addStrChild_lined {l : List SmNode} (h : NodesLined l) (s : Str) : NodesLined (addStrChild l s) := by
  simp only [addStrChild]
  split
  · exact h
  · exact h.append (NodesLined.one (.str s))

theorem mkStr_lined {pos : Option (Nat × Nat)} {src name : Option Int} (h : PosIn pos) (s : Str) :
    (SmNode.mkStr pos src name s).Lined :=
  .node h (addStrChild_lined NodesLined.nil s)

theorem mkVec_lined {v : List SmNode} (h : NodesLined v) : (SmNode.mkVec none none none v).Lined :=
  .node PosIn.none h

theorem addMappingWithCode_lined {l : List SmNode} (h : NodesLined l) {m : Option Mapping}
    (hm : ∀ x, m = some x → x.Lined) (code : Str) : NodesLined (addMappingWithCode l m code) := by
  cases m with
  | none => exact addStrChild_lined h code
  | some m =>
    simp only [addMappingWithCode]
    split
    · exact h.append (NodesLined.one (mkStr_lined (hm m rfl) code))
    · exact addStrChild_lined h code

theorem chunkHead_lined {c : WalkCtx} (h : c.map.Lined) {src name : Option Int}
    {pos : Option (Nat × Nat)} (hp : PosIn pos) (chunk : Str) :
    (chunkHead c chunk src pos name).map.Lined := by
  simp only [chunkHead]
  split
  · dsimp only
    split
    · exact h.addMapping (by simpa [Mapping.Lined] using hp)
    · exact h
  · split
    · exact h.addMapping (m := ⟨c.gen, none, none, none⟩) PosIn.none
    · exact h

theorem chunkChars_lined {src name : Option Int} {pos : Option (Nat × Nat)} (hp : PosIn pos) :
    ∀ {s : Str} {c : WalkCtx}, c.map.Lined → (chunkChars src pos name c s).map.Lined
  | [], _, h => h
  | ch :: s, c, h => by
    simp only [chunkChars]
    split
    · refine chunkChars_lined hp ?_
      split
      · exact h
      · split
        · exact h.addMapping (by simpa [Mapping.Lined] using hp)
        · exact h
    · exact chunkChars_lined hp h

theorem processChunk_lined {c : WalkCtx} (h : c.map.Lined) {src name : Option Int}
    {pos : Option (Nat × Nat)} (hp : PosIn pos) (chunk : Str) :
    (processChunk c chunk src pos name).map.Lined :=
  chunkChars_lined hp (chunkHead_lined h hp chunk)

mutual
  theorem walk_lined : ∀ {n : SmNode} {c : WalkCtx}, n.Lined → c.map.Lined → (n.walk c).map.Lined
    | .str s, c, _, h => by
      simp only [SmNode.walk]
      exact processChunk_lined h PosIn.none s
    | .node pos src name cs ch, c, hn, h => by
      cases hn with
      | node h1 h4 =>
        simp only [SmNode.walk]
        exact foldl_in (P := fun c : WalkCtx => c.map.Lined)
          (fun c p hp hc => hc.setSourceContent _ _) (walkList_lined h1 h4 h)
  theorem walkList_lined : ∀ {ch : List SmNode} {c : WalkCtx} {pos : Option (Nat × Nat)}
      {src name : Option Int}, PosIn pos → NodesLined ch → c.map.Lined →
      (SmNode.walkList pos src name ch c).map.Lined
    | [], c, _, _, _, _, _, h => by simp only [SmNode.walkList]; exact h
    | .str s :: rest, c, pos, src, name, hs, hl, h => by
      simp only [SmNode.walkList]
      exact walkList_lined hs hl.tail (processChunk_lined h hs s)
    | .node p s n cs ch :: rest, c, pos, src, name, hs, hl, h => by
      simp only [SmNode.walkList]
      exact walkList_lined hs hl.tail (walk_lined hl.head h)
end

theorem toStringWithGenerator_lined {n : SmNode} (h : n.Lined) (file : Option Int) (root : Option Str) :
    (n.toStringWithGenerator file root).2.Lined :=
  walk_lined h (Generator.new_lined _ _ _)

structure FsState.Lined (st : FsState) : Prop where
  children : NodesLined st.children
  last : ∀ x, st.lastMapping = some x → x.Lined

theorem skipLines_lined : ∀ {n : Nat} {st : FsState}, st.Lined → (skipLines n st).Lined
  | 0, _, h => h
  | n + 1, st, h => by
    simp only [skipLines]
    exact skipLines_lined ⟨addStrChild_lined h.children _, h.last⟩

theorem fsTail_lined {st st' : FsState} (h : st.Lined) {m : Mapping} (hm : m.Lined)
    (e : fsTail st m = .ok st') : st'.Lined := by
  simp only [fsTail] at e
  have hk := skipLines_lined (n := m.generated.1 - st.lastPos.1) h
  split at e
  · split at e
    · cases e
    · cases e
      exact ⟨addStrChild_lined hk.children _, fun x hx => by cases hx; exact hm⟩
  · cases e
    exact ⟨hk.children, fun x hx => by cases hx; exact hm⟩

theorem fsStep_lined {st st' : FsState} (h : st.Lined) {m : Mapping} (hm : m.Lined)
    (e : fsStep st m = .ok st') : st'.Lined := by
  simp only [fsStep] at e
  split at e
  · rename_i lm el
    have hlm : ∀ x, some lm = some x → x.Lined := fun x hx => by cases hx; exact h.last _ el
    split at e
    · refine fsTail_lined ⟨addMappingWithCode_lined h.children hlm _, ?_⟩ hm e
      intro x hx
      exact h.last x hx
    · split at e
      · cases e
      · cases e
        exact ⟨addMappingWithCode_lined h.children hlm _, fun x hx => by cases hx; exact hm⟩
  · exact fsTail_lined h hm e

theorem fsLoop_lined : ∀ {ms : List Mapping} {st st' : FsState}, st.Lined → (∀ m ∈ ms, m.Lined) →
    fsLoop st ms = .ok st' → st'.Lined
  | [], _, _, h, _, e => by cases e; exact h
  | m :: ms, st, st', h, hm, e => by
    simp only [fsLoop] at e
    split at e
    · cases e
    · exact fsLoop_lined (fsStep_lined h (hm m (List.mem_cons_self ..)) ‹_›)
        (fun x hx => hm x (List.mem_cons_of_mem _ hx)) e

theorem fsFinish_lined {st : FsState} (h : st.Lined) : NodesLined (fsFinish st) := by
  simp only [fsFinish]
  split
  · split
    · rename_i lm el
      exact addStrChild_lined (addMappingWithCode_lined h.children
        (fun x hx => by cases hx; exact h.last _ el) _) _
    · exact addStrChild_lined h.children _
  · exact h.children

theorem fromStringWithGenerator_lined {code : Str} {g : Generator} (h : g.Lined) {n : SmNode}
    (e : fromStringWithGenerator code g = .ok n) : n.Lined := by
  simp only [fromStringWithGenerator] at e
  split at e
  · cases e
  · rename_i st es
    cases e
    exact .node PosIn.none
      (fsFinish_lined (fsLoop_lined ⟨NodesLined.nil, fun x hx => by cases hx⟩ h es))

theorem originalItems_lined {name : Int} {lineNo : Nat} (hl : LineIn lineNo) :
    ∀ {items : List Str} {pos : Nat} {acc : List SmNode}, NodesLined acc →
    NodesLined (originalItems name lineNo pos acc items)
  | [], _, _, h => h
  | i :: is, pos, acc, h => by
    simp only [originalItems]
    split
    · exact originalItems_lined hl (addStrChild_lined h i)
    · exact originalItems_lined hl (h.append (NodesLined.one (mkStr_lined
        (fun x hx => by cases hx; exact hl) i)))

theorem originalLines_lined {cols : Bool} {name : Int} :
    ∀ {ls : List Str} {i : Nat}, 1 ≤ i → i + ls.length ≤ 4294967297 →
      NodesLined (originalLines cols name i ls)
  | [], _, _, _ => NodesLined.nil
  | l :: ls, i, h1, h2 => by
    rw [List.length_cons] at h2
    have hi : LineIn i := ⟨h1, by omega⟩
    simp only [originalLines]
    refine NodesLined.cons ?_ (originalLines_lined (by omega) (by omega))
    simp only [originalLine]
    split
    · exact .node PosIn.none (originalItems_lined hi NodesLined.nil)
    · exact mkStr_lined (fun x hx => by cases hx; exact hi) l

mutual
  theorem cloneAndPrefix_lined {p : Str} : ∀ {n : SmNode} {a : Int}, n.Lined →
      (cloneAndPrefix p n a).1.Lined
    | .str s, a, _ => by simp only [cloneAndPrefix]; exact .str _
    | .node pos src name cs ch, a, h => by
      cases h with
      | node h1 h4 =>
        simp only [cloneAndPrefix]
        exact .node h1 (cloneAndPrefixList_lined h4)
  theorem cloneAndPrefixList_lined {p : Str} : ∀ {l : List SmNode} {a : Int}, NodesLined l →
      NodesLined (cloneAndPrefixList p l a).1
    | [], a, _ => by simp only [cloneAndPrefixList]; exact NodesLined.nil
    | c :: cs, a, h => by
      simp only [cloneAndPrefixList]
      exact NodesLined.cons (cloneAndPrefix_lined h.head) (cloneAndPrefixList_lined h.tail)
end

theorem prefixNode_lined {p : Str} {n : SmNode} (h : n.Lined) : (prefixNode p n).Lined :=
  mkVec_lined (NodesLined.one (cloneAndPrefix_lined h))

mutual
  theorem splitSm_lined : ∀ {n : SmNode} {pos : Int}, n.Lined →
      (∀ l r, splitSm n pos = .ok (l, r) → l.Lined ∧ r.Lined) ∧
      (∀ q m, splitSm n pos = .error (q, m) → m.Lined)
    | .str s, pos, _ => by
      simp only [splitSm]
      refine ⟨fun l r e => ?_, fun q m e => ?_⟩
      · split at e
        · cases e; exact ⟨.str _, .str _⟩
        · cases e
      · split at e
        · cases e
        · cases e; exact .str _
    | .node p src name cs ch, pos, h => by
      cases h with
      | node h1 h4 =>
        have ih := splitSmList_lined (pos := pos) h4
        simp only [splitSm]
        refine ⟨fun l r e => ?_, fun q m e => ?_⟩
        · split at e
          · rename_i ls rs e1
            cases e
            exact ⟨.node h1 (ih.1 _ _ e1).1, .node h1 (ih.1 _ _ e1).2⟩
          · cases e
        · split at e
          · cases e
          · rename_i q' ls e1
            cases e
            exact .node h1 (ih.2 _ _ e1)
  theorem splitSmList_lined : ∀ {l : List SmNode} {pos : Int}, NodesLined l →
      (∀ a b, splitSmList l pos = .ok (a, b) → NodesLined a ∧ NodesLined b) ∧
      (∀ q m, splitSmList l pos = .error (q, m) → NodesLined m)
    | [], pos, _ => by
      simp only [splitSmList]
      exact ⟨fun _ _ e => (by cases e), fun _ _ e => by cases e; exact NodesLined.nil⟩
    | x :: xs, pos, h => by
      have hx := splitSm_lined (pos := pos) h.head
      simp only [splitSmList]
      refine ⟨fun a b e => ?_, fun q m e => ?_⟩
      · split at e
        · rename_i l r e1
          cases e
          exact ⟨NodesLined.one (hx.1 _ _ e1).1, NodesLined.cons (hx.1 _ _ e1).2 h.tail⟩
        · rename_i p x' e1
          have hxs := splitSmList_lined (pos := p) h.tail
          split at e
          · rename_i ls rs e2
            cases e
            exact ⟨NodesLined.cons (hx.2 _ _ e1) (hxs.1 _ _ e2).1, (hxs.1 _ _ e2).2⟩
          · cases e
      · split at e
        · cases e
        · rename_i p x' e1
          have hxs := splitSmList_lined (pos := p) h.tail
          split at e
          · cases e
          · rename_i q' ls e2
            cases e
            exact NodesLined.cons (hx.2 _ _ e1) (hxs.2 _ _ e2)
end

theorem replacementNode_lined {old n : SmNode} (h : old.Lined) {t : Str}
    (e : replacementNode old t = .ok n) : n.Lined := by
  cases old with
  | str s => cases e
  | node p s nm c ch =>
    simp only [replacementNode] at e
    cases e
    exact mkStr_lined (originalPositionIn_lined (toStringWithGenerator_lined h none none).sort 1 0) t

theorem replNodeLoop_lined : ∀ {rs : List Repl} {st st' : List SmNode}, NodesLined st →
    replNodeLoop st rs = .ok st' → NodesLined st'
  | [], _, _, h, e => by cases e; exact h
  | r :: rs, [], _, _, e => by cases e
  | r :: rs, rem :: st, st', h, e => by
    simp only [replNodeLoop] at e
    split at e
    · rename_i l1 r1 e1
      have h1 := (splitSm_lined (pos := r.stop) h.head).1 _ _ e1
      split at e
      · rename_i l2 r2 e2
        have h2 := (splitSm_lined (pos := r.start) h1.1).1 _ _ e2
        split at e
        · cases e
        · exact replNodeLoop_lined (.cons h2.1 (.cons (replacementNode_lined h2.2 ‹_›)
            (.cons h1.2 h.tail))) e
      · rename_i l1' e2
        have h2 := (splitSm_lined (pos := r.start) h1.1).2 _ _ e2
        split at e
        · cases e
        · exact replNodeLoop_lined (.cons h2 (.cons (replacementNode_lined h1.2 ‹_›)
            (.cons h1.2 h.tail))) e
    · rename_i rem' e1
      have h1 := (splitSm_lined (pos := r.stop) h.head).2 _ _ e1
      split at e
      · rename_i l2 r2 e2
        have h2 := (splitSm_lined (pos := r.start) h1).1 _ _ e2
        split at e
        · cases e
        · exact replNodeLoop_lined (.cons h2.1 (.cons (replacementNode_lined h2.2 ‹_›) h.tail)) e
      · rename_i rem'' e2
        have h2 := (splitSm_lined (pos := r.start) h1).2 _ _ e2
        exact replNodeLoop_lined (.cons h2 (.cons (.str _) h.tail)) e

theorem replaceNode_lined {inner n : SmNode} (h : inner.Lined) {rs : List Repl}
    (e : replaceNode inner rs = .ok n) : n.Lined := by
  simp only [replaceNode] at e
  split at e
  · cases e
  · cases e
    exact mkVec_lined (replNodeLoop_lined (NodesLined.one h) ‹_›)

/-! ## Objects -/

/-- The text has at most 2^32 lines. -/
def Spec.FewLines (v : Str) : Prop := (splitKeep '\n' v).length ≤ 4294967296

theorem originalNode_lined {cols : Bool} {v : Str} {name vi : Int} (h : FewLines v) :
    (originalNode cols v name vi).Lined := by
  unfold FewLines at h
  exact .node PosIn.none (originalLines_lined (Nat.le_refl _) (by omega))

theorem l2lNode_lined {v : Str} {name o : Int} (h : FewLines v) : (l2lNode v name o).Lined := by
  unfold FewLines at h
  exact .node PosIn.none (originalLines_lined (Nat.le_refl _) (by omega))

/-- The generator in a holder, if any. -/
def SmHolder.Lined (h : SmHolder) : Prop := ∀ g, h.gen = some g → g.Lined

structure Sms.Lined (s : Sms) : Prop where
  map : s.map.Lined
  inner : ∀ i, s.inner = some i → i.Lined

def Obj.Lined : Obj → Prop
  | .original v _ _ => FewLines v
  | .l2l v _ _ => FewLines v
  | .sms s => s.Lined
  | _ => True

theorem SmHolder.Lined.getData {h h' : SmHolder} (H : h.Lined) {d : SmData}
    (e : h.getData = .ok (d, h')) : h'.Lined := by
  simp only [SmHolder.getData] at e
  split at e
  · cases e; exact H
  · split at e
    · cases e
    · split at e
      · cases e
      · rename_i m g' e1
        have := (H _ ‹_›).toSourceMap e1
        cases e
        exact fun g hg => by cases hg; exact this

theorem SmHolder.Lined.getGen {h h' : SmHolder} (H : h.Lined) {g : Generator}
    (e : h.getGen = .ok (g, h')) : g.Lined ∧ h'.Lined := by
  simp only [SmHolder.getGen] at e
  split at e
  · cases e; exact ⟨H _ ‹_›, H⟩
  · split at e
    · cases e
    · split at e
      · cases e
      · rename_i g' e1
        have := fromSourceMap_lined e1
        cases e
        exact ⟨this, fun g hg => by cases hg; exact this⟩

theorem Sms.Lined.node {s s' : Sms} (H : s.Lined) {n : SmNode} (e : s.node = .ok (n, s')) :
    n.Lined ∧ s'.Lined := by
  simp only [Sms.node] at e
  split at e
  · cases e
  · rename_i g mp e1
    have h1 := H.map.getGen e1
    split at e
    · rename_i ei
      split at e
      · cases e
      · cases e
        exact ⟨fromStringWithGenerator_lined h1.1 ‹_›, h1.2, H.inner⟩
    · rename_i ih ei
      split at e
      · cases e
      · rename_i ig ih' e2
        have h2 := (H.inner _ ei).getGen e2
        split at e
        · cases e
        · rename_i g' ig' e3
          have hg : (if s.original.isSome then g.setSourceContent s.name s.original else g).Lined := by
            split
            · exact h1.1.setSourceContent _ _
            · exact h1.1
          have h3 : g'.Lined ∧ ig'.Lined := by
            split at e3
            · cases e3; exact ⟨hg, h2.1⟩
            · exact hg.applySourceMap h2.1 e3
          split at e
          · cases e
          · cases e
            refine ⟨fromStringWithGenerator_lined h3.1 ‹_›,
              fun g hg => by cases hg; exact h3.1, ?_⟩
            intro i hi
            cases hi
            exact fun g hg => by cases hg; exact h3.2

theorem Sms.Lined.listMap {s s' : Sms} (H : s.Lined) {b : Bool} {m : Slm}
    (e : s.listMap b = .ok (m, s')) : s'.Lined := by
  simp only [Sms.listMap] at e
  split at e
  · cases e
    exact H
  · split at e
    · cases e
    · rename_i d mp e1
      have h1 := H.map.getData e1
      split at e
      · cases e
      · cases e
        exact ⟨h1, H.inner⟩

theorem hNode_lined (cols mod : Bool) (fuel : Nat) : ∀ (h : Heap) (busy : List Nat) (c : Src)
    (n : SmNode) (h' : Heap), Heap.All Obj.Lined h → hNode cols mod fuel h busy c = .ok (n, h') →
    n.Lined ∧ Heap.All Obj.Lined h' := by
  induction fuel with
  | zero => intro h busy c s h' _ e; cases c <;> cases e
  | succ fuel ih =>
    intro h busy c n h' H e
    cases c with
    | str s => cases e
    | ref i =>
      simp only [hNode] at e
      split at e
      · cases e
      · split at e
        · cases e
        · cases e; exact ⟨mkStr_lined PosIn.none _, H⟩
        · rename_i eo
          have ho := H _ _ eo
          cases e; exact ⟨originalNode_lined ho, H⟩
        · rename_i eo
          have ho := H _ _ eo
          cases e; exact ⟨l2lNode_lined ho, H⟩
        · rename_i eo
          have ho : Sms.Lined _ := H _ _ eo
          split at e
          · cases e
          · rename_i e1
            have := ho.node e1
            cases e
            exact ⟨this.1, H.set (o := .sms _) this.2⟩
        · split at e
          · cases e
          · rename_i e1
            have := ih _ _ _ _ _ H e1
            cases e
            exact ⟨prefixNode_lined this.1, this.2⟩
        · split at e
          · cases e
          · rename_i e1
            have := ih _ _ _ _ _ (H.set (by exact trivial)) e1
            split at e
            · cases e
            · cases e
              exact ⟨replaceNode_lined this.1 ‹_›, this.2⟩
        · split at e
          · cases e
          · rename_i e1
            have := eachChild_all (P := fun n : SmNode => n.Lined) (fun c _ h a h' H e => by
              cases c with
              | str s => cases e; exact ⟨.str s, H⟩
              | ref j => exact ih _ _ _ _ _ H e) H e1
            cases e
            exact ⟨mkVec_lined this.1, this.2⟩

theorem hListMap_lined (cols mod : Bool) (fuel : Nat) : ∀ (h : Heap) (busy : List Nat) (c : Src)
    (m : Slm) (h' : Heap), Heap.All Obj.Lined h → hListMap cols mod fuel h busy c = .ok (m, h') →
    Heap.All Obj.Lined h' := by
  induction fuel with
  | zero => intro h busy c s h' _ e; cases c <;> cases e
  | succ fuel ih =>
    intro h busy c n h' H e
    cases c with
    | str s => cases e
    | ref i =>
      simp only [hListMap] at e
      split at e
      · cases e
      · split at e
        · cases e
        · cases e; exact H
        · cases e; exact H
        · cases e; exact H
        · rename_i eo
          have ho : Sms.Lined _ := H _ _ eo
          split at e
          · cases e
          · rename_i e1
            have := ho.listMap e1
            cases e
            exact H.set (o := .sms _) this
        · split at e
          · cases e
          · rename_i e1
            have := ih _ _ _ _ _ H e1
            cases e
            exact this
        · split at e
          · cases e
          · rename_i e1
            have := ih _ _ _ _ _ (H.set (by exact trivial)) e1
            cases e
            exact this
        · split at e
          · cases e
          · rename_i e1
            have := eachChild_all (P := fun _ : Str ⊕ Slm => True)
              (fun c _ h a h' H e => by
                cases c with
                | str s => cases e; exact ⟨trivial, H⟩
                | ref j =>
                  dsimp only at e
                  split at e
                  · cases e
                  · rename_i e2
                    have := ih _ _ _ _ _ H e2
                    cases e
                    exact ⟨trivial, this⟩) H e1
            cases e
            exact this.2

/-- The texts a program gives to `OriginalSource` and `LineToLineMappedSource` have at most 2^32 lines,
and generators it gives to a `SourceMapSource` have original lines from 1 to 2^32. (Maps given as text
need nothing: `parse_mappings` refuses others.) -/
def Spec.Op.Fits : Op → Prop
  | .newOriginal v _ _ => FewLines v
  | .newL2l v _ _ => FewLines v
  | .newSms _ _ _ m _ i => m.Lined ∧ ∀ x, i = some x → x.Lined
  | _ => True

theorem Op.run_lined {op : Op} {h h' : Heap} {a : Answer} (H : Heap.All Obj.Lined h)
    (ho : Spec.Op.Fits op) (e : op.run h = .ok (a, h')) : Heap.All Obj.Lined h' := by
  cases op <;> simp only [Op.run, Except.map_ok_iff] at e
  case newRaw => cases e; exact H.push trivial
  case newOriginal => cases e; exact H.push ho
  case newL2l => cases e; exact H.push ho
  case newSms =>
    cases e
    exact H.push (o := .sms _) ⟨ho.1, ho.2⟩
  case newPrefix =>
    split at e
    · cases e; exact H.push trivial
    · cases e
  case newReplace =>
    split at e
    · cases e; exact H.push trivial
    · cases e
  case newConcat => cases e; exact H.push trivial
  case add =>
    obtain ⟨h1, e, e'⟩ := e
    cases e'
    simp only [hAdd] at e
    split at e
    · split at e
      · cases e; exact H.set trivial
      · split at e
        · cases e
        · split at e
          · cases e
          · cases e; exact H.set trivial
        · cases e; exact H.set trivial
    · cases e
  case replace =>
    obtain ⟨h1, e, e'⟩ := e
    cases e'
    simp only [hReplace] at e
    split at e
    · cases e; exact H.set trivial
    · cases e
  case insert =>
    obtain ⟨h1, e, e'⟩ := e
    cases e'
    simp only [hInsert] at e
    split at e
    · cases e; exact H.set trivial
    · cases e
  case source =>
    obtain ⟨⟨s, h1⟩, e, e'⟩ := e
    cases e'
    exact hSource_all (fun _ _ _ _ _ _ _ => trivial) _ _ _ _ _ _ H e
  case size =>
    obtain ⟨⟨s, h1⟩, e, e'⟩ := e
    cases e'
    exact hSize_all (fun _ _ _ _ _ _ _ => trivial) _ _ _ _ _ _ H e
  case node =>
    obtain ⟨⟨s, h1⟩, e, e'⟩ := e
    cases e'
    exact (hNode_lined _ _ _ _ _ _ _ _ H e).2
  case listMap =>
    obtain ⟨⟨s, h1⟩, e, e'⟩ := e
    cases e'
    exact hListMap_lined _ _ _ _ _ _ _ _ H e

theorem runFrom_lined {ops : List Op} : ∀ {h h' : Heap}, Heap.All Obj.Lined h →
    (∀ op ∈ ops, Spec.Op.Fits op) → runFrom h ops = .ok h' → Heap.All Obj.Lined h' := by
  induction ops with
  | nil => intro h h' H _ e; cases e; exact H
  | cons op ops ih =>
    intro h h' H ho e
    simp only [runFrom] at e
    split at e
    · cases e
    · exact ih (Op.run_lined H (ho op (List.mem_cons_self ..)) ‹_›)
        (fun x hx => ho x (List.mem_cons_of_mem _ hx)) e

theorem run_lined {ops : List Op} {h : Heap} (ho : ∀ op ∈ ops, Spec.Op.Fits op)
    (e : run ops = .ok h) : Heap.All Obj.Lined h :=
  runFrom_lined (fun i o hi => by cases hi) ho e

end WS
