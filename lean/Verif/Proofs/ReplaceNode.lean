import Verif.Proofs.SplitNode
import Verif.Proofs.Edits
/-! # `ReplaceSource::node` -/

namespace WS
open Spec

/-- The part of the context of a walk that decides which mappings are added. -/
structure Core where
  mappings : MappingList
  active : Bool
  lastSource : Option Int
  lastPos : Option (Nat × Nat)
  lastName : Option Int
  gen : Nat × Nat
  deriving DecidableEq, Repr

/-- See `Core`. -/
def WalkCtx.core (c : WalkCtx) : Core :=
  ⟨c.map.mappings, c.active, c.lastSource, c.lastPos, c.lastName, c.gen⟩

/-- The beginning of a walk. -/
def Core.new : Core := ⟨.new, false, none, none, none, (1, 0)⟩

/-- `chunkHead` on the core; the origin is given as a whole. -/
def Core.head (c : Core) (o : Option Origin) : Core :=
  match o with
  | some o =>
    { c with
      mappings := if c.lastSource ≠ some o.source ∨ c.lastPos ≠ some (o.line, o.col) ∨
          c.lastName ≠ o.name then
          c.mappings.add { generated := c.gen, source := some o.source, name := o.name,
                           original := some (o.line, o.col) }
        else c.mappings
      lastSource := some o.source, lastPos := some (o.line, o.col), lastName := o.name
      active := true }
  | none =>
    if c.active then
      { c with mappings := c.mappings.add { generated := c.gen, source := none, name := none,
                                            original := none }
               lastSource := none, active := false }
    else c

/-- `chunkChars` on the core. -/
def Core.chars (o : Option Origin) : Core → Str → Core
  | c, [] => c
  | c, ch :: rest =>
    if ch = '\n' then
      let c := { c with gen := (c.gen.1 + 1, 0) }
      let c := if rest.isEmpty then { c with lastSource := none, active := false }
        else match o with
          | some o =>
            { c with mappings := (c.mappings.add
                ⟨c.gen, some o.source, o.name, some (o.line, o.col)⟩) }
          | none => c
      Core.chars o c rest
    else Core.chars o { c with gen := (c.gen.1, c.gen.2 + 1) } rest

/-- The walk over leaves. -/
def Core.walk : Core → List (Str × Option Origin) → Core
  | c, [] => c
  | c, (s, o) :: rest => Core.walk (Core.chars o (c.head o) s) rest

theorem Core.walk_append (A B : List (Str × Option Origin)) (c : Core) :
    c.walk (A ++ B) = (c.walk A).walk B := by
  induction A generalizing c with
  | nil => rfl
  | cons a A ih => exact ih _

theorem addMapping_mappings (g : Generator) (m : Mapping) :
    (g.addMapping m).mappings = g.mappings.add m := by
  unfold Generator.addMapping
  dsimp only
  have h1 : ∀ (g : Generator) n, (g.addName n).mappings = g.mappings := fun g n => rfl
  have h2 : ∀ (g : Generator) n, (g.addSource n).mappings = g.mappings := fun g n => rfl
  cases m.name <;> cases m.source <;> simp [h1, h2]

theorem chunkHead_core (c : WalkCtx) (chunk : Str) (src : Option Int) (pos : Option (Nat × Nat))
    (name : Option Int) : (chunkHead c chunk src pos name).core = c.core.head (originOf pos src name) := by
  unfold chunkHead
  dsimp only
  cases src with
  | none =>
    simp only [Option.isSome_none, Bool.false_and, Bool.false_eq_true, if_false]
    have : originOf pos none name = none := by cases pos <;> rfl
    rw [this, Core.head]
    show _ = if c.active = true then _ else _
    split
    · simp [WalkCtx.core, addMapping_mappings]
    · rfl
  | some s =>
    cases pos with
    | none =>
      simp only [Option.isSome_none, Bool.and_false, Bool.false_eq_true, if_false]
      show _ = c.core.head none
      rw [Core.head]
      show _ = if c.active = true then _ else _
      split
      · simp [WalkCtx.core, addMapping_mappings]
      · rfl
    | some p =>
      simp only [Option.isSome_some, Bool.and_self, if_true]
      show _ = c.core.head (some ⟨s, p.1, p.2, name⟩)
      rw [Core.head]
      by_cases h : c.lastSource ≠ some s ∨ c.lastPos ≠ some p ∨ c.lastName ≠ name
      · have h' : c.core.lastSource ≠ some s ∨ c.core.lastPos ≠ some (p.1, p.2) ∨ c.core.lastName ≠ name := h
        rw [if_pos h]
        simp only [if_pos h']
        simp [WalkCtx.core, addMapping_mappings]
      · have h' : ¬ (c.core.lastSource ≠ some s ∨ c.core.lastPos ≠ some (p.1, p.2) ∨ c.core.lastName ≠ name) := h
        rw [if_neg h]
        simp only [if_neg h']
        simp [WalkCtx.core]

theorem chunkChars_core (src : Option Int) (pos : Option (Nat × Nat)) (name : Option Int) :
    ∀ (rest : Str) (c : WalkCtx), (rest ≠ [] → c.active = (originOf pos src name).isSome) →
    (chunkChars src pos name c rest).core = Core.chars (originOf pos src name) c.core rest := by
  intro rest
  induction rest with
  | nil => intro c _; rfl
  | cons ch rest ih =>
    intro c ha
    have ha' := ha (by simp)
    rw [chunkChars, Core.chars]
    split
    · dsimp only
      cases hr : rest with
      | nil =>
        simp only [List.isEmpty_nil, if_true]
        rfl
      | cons x xs =>
        simp only [List.isEmpty_cons, Bool.false_eq_true, if_false]
        rw [← hr]
        cases ho : originOf pos src name with
        | none =>
          rw [ho] at ha' ih
          rw [if_neg (by simp [ha'])]
          rw [ih _ (by intro _; exact ha')]; rfl
        | some o =>
          rw [ho] at ha' ih
          rw [if_pos (by simp [ha'])]
          rw [ih _ (by intro _; exact ha')]
          congr 1
          simp only [WalkCtx.core, addMapping_mappings]
          cases pos with
          | none => simp [originOf] at ho
          | some p =>
            cases src with
            | none => simp [originOf] at ho
            | some s =>
              simp only [originOf, Option.some.injEq] at ho
              subst ho
              rfl
    · rw [ih _ (by intro _; exact ha')]; rfl

theorem Core.head_active (c : Core) (o : Option Origin) : (c.head o).active = o.isSome := by
  cases o with
  | some o => rfl
  | none =>
    unfold Core.head
    dsimp only
    split
    · rfl
    · simp_all

theorem processChunk_core (c : WalkCtx) (chunk : Str) (src : Option Int) (pos : Option (Nat × Nat))
    (name : Option Int) :
    (processChunk c chunk src pos name).core =
      Core.chars (originOf pos src name) (c.core.head (originOf pos src name)) chunk := by
  rw [processChunk, chunkChars_core, chunkHead_core]
  intro _
  have := congrArg Core.active (chunkHead_core c chunk src pos name)
  rw [Core.head_active] at this
  exact this

theorem processContents_core (cs : List (Int × Int)) : ∀ c : WalkCtx,
    (cs.foldl processContent c).core = c.core := by
  induction cs with
  | nil => intro c; rfl
  | cons a cs ih => intro c; rw [List.foldl_cons, ih]; rfl

mutual
  /-- The mappings of a walk depend on the leaves only. -/
  theorem SmNode.walk_core : ∀ (n : SmNode) (c : WalkCtx), (n.walk c).core = c.core.walk n.leaves
    | .str s, c => by
      rw [SmNode.walk, processChunk_core]; rfl
    | .node pos src name contents children, c => by
      rw [SmNode.walk, processContents_core, SmNode.walkList_core pos src name children c]
      rfl
  theorem SmNode.walkList_core (pos : Option (Nat × Nat)) (src name : Option Int) :
      ∀ (l : List SmNode) (c : WalkCtx), (SmNode.walkList pos src name l c).core =
        c.core.walk (SmNode.leavesList (originOf pos src name) l)
    | [], c => rfl
    | .str s :: rest, c => by
      rw [SmNode.walkList, SmNode.walkList_core pos src name rest, processChunk_core]; rfl
    | .node p s n cs ch :: rest, c => by
      rw [SmNode.walkList, SmNode.walkList_core pos src name rest, SmNode.walk_core (.node p s n cs ch),
        SmNode.leavesList, Core.walk_append]
end

/-- The origin `replacement_to_sourcenode` finds. -/
def headOrigin (L : List (Str × Option Origin)) : Option Origin :=
  let m := originalPositionIn (Core.new.walk L).mappings.sort.list 1 0
  originOf m.original m.source none

/-- The leaf made of a replacement text. -/
def replLeaf (o : Option Origin) (t : Str) : List (Str × Option Origin) :=
  if t.isEmpty then [] else [(t, o)]

theorem replacementNode_leaves {n : SmNode} (hn : n.IsNode) (t : Str) :
    ∃ r, replacementNode n t = .ok r ∧ r.IsNode ∧ r.leaves = replLeaf (headOrigin n.leaves) t := by
  cases n with
  | str s => cases hn
  | node p src nm c ch =>
    refine ⟨_, rfl, trivial, ?_⟩
    have h := SmNode.walk_core (.node p src nm c ch) (WalkCtx.new none none)
    have h' : ((SmNode.node p src nm c ch).walk (WalkCtx.new none none)).map.mappings =
        (Core.new.walk (SmNode.node p src nm c ch).leaves).mappings := congrArg Core.mappings h
    unfold SmNode.toStringWithGenerator Generator.originalPositionFor
    dsimp only
    rw [h']
    unfold SmNode.mkStr addStrChild replLeaf headOrigin
    dsimp only
    rw [SmNode.leaves]
    split
    · rfl
    · rfl

/-- `ReplaceSource::node` on leaves. -/
def leafLoop : List (Str × Option Origin) → List Repl → List (Str × Option Origin)
  | rem, [] => rem
  | rem, r :: rs =>
    match splitLeaves rem r.stop with
    | .ok (l1, r1) =>
      match splitLeaves l1 r.start with
      | .ok (l2, r2) => leafLoop l2 rs ++ (replLeaf (headOrigin r2) r.text ++ r1)
      | .error _ => leafLoop l1 rs ++ (replLeaf (headOrigin r1) r.text ++ r1)
    | .error _ =>
      match splitLeaves rem r.start with
      | .ok (l2, r2) => leafLoop l2 rs ++ replLeaf (headOrigin r2) r.text
      | .error _ => leafLoop rem rs ++ [(r.text, none)]

theorem leavesList_node_cons (o : Option Origin) {n : SmNode} (hn : n.IsNode) (l : List SmNode) :
    SmNode.leavesList o (n :: l) = n.leaves ++ SmNode.leavesList o l := by
  rw [leavesList_cons, leaves_of_isNode hn]

theorem replNodeLoop_leaves : ∀ (rs : List Repl) (rem : SmNode) (stack : List SmNode), rem.IsNode →
    ∃ stack', replNodeLoop (rem :: stack) rs = .ok stack' ∧
      SmNode.leavesList none stack' = leafLoop rem.leaves rs ++ SmNode.leavesList none stack := by
  intro rs
  induction rs with
  | nil =>
    intro rem stack hn
    exact ⟨_, rfl, by rw [leavesList_node_cons none hn, leafLoop]⟩
  | cons r rs ih =>
    intro rem stack hn
    rw [replNodeLoop, leafLoop]
    have h1 := splitSm_leaves hn r.stop
    revert h1
    rcases splitSm rem r.stop with ⟨q, rem'⟩ | ⟨l1, r1⟩
    · rintro ⟨rfl, k⟩
      simp only [k]
      have h2 := splitSm_leaves hn r.start
      revert h2
      rcases splitSm rem' r.start with ⟨q', rem''⟩ | ⟨l2, r2⟩
      · rintro ⟨rfl, k'⟩
        simp only [k']
        obtain ⟨st, e, h⟩ := ih rem'' (.str r.text :: stack) hn
        exact ⟨st, e, by rw [h]; simp [SmNode.leavesList]⟩
      · rintro ⟨n1, n2, k'⟩
        simp only [k']
        obtain ⟨n, e1, hn', hl⟩ := replacementNode_leaves n2 r.text
        simp only [e1]
        obtain ⟨st, e, h⟩ := ih l2 (n :: stack) n1
        exact ⟨st, e, by rw [h, leavesList_node_cons none hn', hl]; simp⟩
    · rintro ⟨m1, m2, k⟩
      simp only [k]
      have h2 := splitSm_leaves m1 r.start
      revert h2
      rcases splitSm l1 r.start with ⟨q', l1'⟩ | ⟨l2, r2⟩
      · rintro ⟨rfl, k'⟩
        simp only [k']
        obtain ⟨n, e1, hn', hl⟩ := replacementNode_leaves m2 r.text
        simp only [e1]
        obtain ⟨st, e, h⟩ := ih l1' (n :: r1 :: stack) m1
        exact ⟨st, e, by
          rw [h, leavesList_node_cons none hn', leavesList_node_cons none m2, hl]; simp⟩
      · rintro ⟨n1, n2, k'⟩
        simp only [k']
        obtain ⟨n, e1, hn', hl⟩ := replacementNode_leaves n2 r.text
        simp only [e1]
        obtain ⟨st, e, h⟩ := ih l2 (n :: r1 :: stack) n1
        exact ⟨st, e, by
          rw [h, leavesList_node_cons none hn', leavesList_node_cons none m2, hl]; simp⟩

/-- `ReplaceSource::node` never fails; its leaves are those of `leafLoop`. -/
theorem replaceNode_leaves {inner : SmNode} (hn : inner.IsNode) (rs : List Repl) :
    ∃ n, replaceNode inner rs = .ok n ∧ n.IsNode ∧ n.leaves = leafLoop inner.leaves rs := by
  obtain ⟨st, e, h⟩ := replNodeLoop_leaves rs inner [] hn
  refine ⟨SmNode.mkVec none none none st, by unfold replaceNode; rw [e], trivial, ?_⟩
  rw [SmNode.mkVec, SmNode.leaves]
  show SmNode.leavesList none st = _
  rw [h]; simp [SmNode.leavesList]

/-! ## Marks -/

theorem marked_replLeaf (o : Option Origin) (t : Str) : marked (replLeaf o t) = uniform o t := by
  unfold replLeaf
  split
  · simp_all [uniform, marked]
  · simp [uniform, marked]

/-- The edits of a `ReplaceSource` with the origins given to the texts. -/
def markedEdits (rs : List Repl) (os : List (Option Origin)) : List MarkedEdit :=
  List.zipWith (fun r o => ⟨r.start, r.stop, uniform o r.text⟩) rs os

theorem leafLoop_marks : ∀ (rs : List Repl) (L : List (Str × Option Origin)),
    ∃ os : List (Option Origin), os.length = rs.length ∧
      marked (leafLoop L rs) = applyRightM (marked L) (markedEdits rs os) := by
  intro rs
  induction rs with
  | nil => intro L; exact ⟨[], rfl, rfl⟩
  | cons r rs ih =>
    intro L
    rw [leafLoop]
    have h1 := splitLeaves_marks L r.stop
    revert h1
    rcases splitLeaves L r.stop with q | ⟨l1, r1⟩
    · rintro ⟨rfl, hq⟩
      simp only
      have hstop : (marked L).length ≤ r.stop.toNat := by
        rcases hq with hq | hq
        · omega
        · subst hq; simp [marked]
      have htake : (marked L).take r.stop.toNat = marked L := List.take_of_length_le hstop
      have hdrop : (marked L).drop r.stop.toNat = [] := List.drop_eq_nil_of_le hstop
      have h2 := splitLeaves_marks L r.start
      revert h2
      rcases splitLeaves L r.start with q | ⟨l2, r2⟩
      · rintro ⟨rfl, hq'⟩
        have hstart : (marked L).length ≤ r.start.toNat := by
          rcases hq' with hq' | hq'
          · omega
          · subst hq'; simp [marked]
        obtain ⟨os, h, e⟩ := ih L
        refine ⟨none :: os, by simp [h], ?_⟩
        simp only
        rw [marked_append, e]
        simp only [markedEdits, List.zipWith_cons_cons, applyRightM, htake, hdrop,
          List.take_of_length_le hstart, List.append_nil]
        simp [marked, uniform]
      · rintro ⟨k1, k2⟩
        obtain ⟨os, h, e⟩ := ih l2
        refine ⟨headOrigin r2 :: os, by simp [h], ?_⟩
        simp only
        rw [marked_append, e, marked_replLeaf]
        simp only [markedEdits, List.zipWith_cons_cons, applyRightM, htake, hdrop, List.append_nil]
        rw [← k1, ← k2, List.take_left]
    · rintro ⟨k1, k2⟩
      simp only
      have htake : (marked L).take r.stop.toNat = marked l1 := by rw [← k1, ← k2, List.take_left]
      have hdrop : (marked L).drop r.stop.toNat = marked r1 := by rw [← k1, ← k2, List.drop_left]
      have h2 := splitLeaves_marks l1 r.start
      revert h2
      rcases splitLeaves l1 r.start with q | ⟨l2, r2⟩
      · rintro ⟨rfl, hq'⟩
        have hstart : (marked l1).length ≤ r.start.toNat := by
          rcases hq' with hq' | hq'
          · omega
          · subst hq'; simp [marked]
        obtain ⟨os, h, e⟩ := ih l1
        refine ⟨headOrigin r1 :: os, by simp [h], ?_⟩
        simp only
        rw [marked_append, marked_append, e, marked_replLeaf]
        simp only [markedEdits, List.zipWith_cons_cons, applyRightM, htake, hdrop,
          List.take_of_length_le hstart, List.append_assoc]
      · rintro ⟨k3, k4⟩
        obtain ⟨os, h, e⟩ := ih l2
        refine ⟨headOrigin r2 :: os, by simp [h], ?_⟩
        simp only
        rw [marked_append, marked_append, e, marked_replLeaf]
        simp only [markedEdits, List.zipWith_cons_cons, applyRightM, htake, hdrop, List.append_assoc]
        rw [← k3, ← k4, List.take_left]

theorem applyRightM_fst : ∀ (es : List MarkedEdit) (m : Marked),
    (applyRightM m es).map Prod.fst = applyRight (m.map Prod.fst)
      (es.map fun e => ⟨e.start, e.stop, e.text.map Prod.fst⟩) := by
  intro es
  induction es with
  | nil => intro m; rfl
  | cons e es ih =>
    intro m
    simp only [applyRightM, List.map_append, List.map_cons, applyRight, ih, List.map_take, List.map_drop]

theorem uniform_fst (o : Option Origin) (s : Str) : (uniform o s).map Prod.fst = s := by
  simp [uniform, Function.comp_def]

theorem markedEdits_fst : ∀ (rs : List Repl) (os : List (Option Origin)), os.length = rs.length →
    (markedEdits rs os).map (fun e => (⟨e.start, e.stop, e.text.map Prod.fst⟩ : Edit)) =
      rs.map Repl.edit := by
  intro rs
  induction rs with
  | nil => intro os _; simp [markedEdits]
  | cons r rs ih =>
    intro os h
    cases os with
    | nil => simp at h
    | cons o os =>
      simp only [markedEdits, List.zipWith_cons_cons, List.map_cons, uniform_fst]
      congr 1
      exact ih os (by simpa using h)

/-- The text of the nodes of a `ReplaceSource` is the edited text. -/
theorem replaceNode_text {inner : SmNode} (hn : inner.IsNode) (rs : List Repl) {n : SmNode}
    (h : replaceNode inner rs = .ok n) : n.text = applyRight inner.text (rs.map Repl.edit) := by
  obtain ⟨n', e, _, hl⟩ := replaceNode_leaves hn rs
  rw [e] at h; cases h
  obtain ⟨os, hlen, hm⟩ := leafLoop_marks rs inner.leaves
  rw [← SmNode.marks_text, ← SmNode.marks_text, SmNode.marks, hl, hm, applyRightM_fst,
    markedEdits_fst rs os hlen]
  rfl

end WS
