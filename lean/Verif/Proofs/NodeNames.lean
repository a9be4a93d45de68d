import Verif.Props.C53
import Verif.Props.C56
import Verif.Proofs.JsLined
/-! # Nodes of objects: empty strings without origin, and the indices in their leaves -/

namespace WS
open Spec

/-! ## Objects without a `ReplaceSource` in them -/

/-- One of the objects. -/
def SrcIn (S : Nat → Prop) : Src → Prop
  | .str _ => True
  | .ref i => S i

/-- The objects are closed under taking parts, and none of them is a `ReplaceSource`. -/
def Clean (S : Nat → Prop) (h : Heap) : Prop :=
  ∀ (i : Nat) (o : Obj), S i → h[i]? = some o → (∀ c rs b, o ≠ .replace c rs b) ∧ ∀ c ∈ o.children, SrcIn S c

theorem Clean.set {S : Nat → Prop} {h : Heap} (H : Clean S h) {i : Nat} {s s' : Sms}
    (_e : h[i]? = some (.sms s)) : Clean S (h.set i (.sms s')) := by
  intro j o hj ho
  rw [List.getElem?_set] at ho
  split at ho
  · split at ho
    · cases ho
      exact ⟨fun c rs b e => (by cases e), fun c hc => by simp [Obj.children] at hc⟩
    · cases ho
  · exact H j o hj ho

theorem eachChild_inv {α : Type} {I : Heap → Prop} {f : Heap → Src → M (α × Heap)} {P : α → Prop} :
    ∀ {cs : List Src}, (∀ c ∈ cs, ∀ h a h', I h → f h c = .ok (a, h') → P a ∧ I h') →
    ∀ {h h' : Heap} {as : List α}, I h → eachChild f h cs = .ok (as, h') → (∀ a ∈ as, P a) ∧ I h'
  | [], _, h, h', as, H, e => by cases e; exact ⟨by simp, H⟩
  | c :: cs, hf, h, h', as, H, e => by
    simp only [eachChild] at e
    split at e
    · cases e
    · rename_i a h1 e1
      have h1 := hf c (List.mem_cons_self ..) _ _ _ H e1
      split at e
      · cases e
      · rename_i as' h2 e2
        have h2 := eachChild_inv (fun c hc => hf c (List.mem_cons_of_mem _ hc)) h1.2 e2
        cases e
        exact ⟨fun x hx => (List.mem_cons.1 hx).elim (fun e => e ▸ h1.1) (h2.1 x), h2.2⟩

theorem hNode_quiet (S : Nat → Prop) (cols mod : Bool) (fuel : Nat) : ∀ (h : Heap) (busy : List Nat) (c : Src)
    (n : SmNode) (h' : Heap), Clean S h → SrcIn S c → hNode cols mod fuel h busy c = .ok (n, h') →
    (n.IsNode ∧ Quiet n.leaves) ∧ Clean S h' := by
  induction fuel with
  | zero => intro h busy c s h' _ _ e; cases c <;> cases e
  | succ fuel ih =>
    intro h busy c n h' H hc e
    cases c with
    | str s => cases e
    | ref i =>
      have hc : S i := hc
      simp only [hNode] at e
      split at e
      · cases e
      · split at e
        · cases e
        · cases e
          refine ⟨⟨trivial, .of_full ?_⟩, H⟩
          rw [rawNode_leaves]
          split
          · exact FullLeaves.nil
          · rename_i hv; intro l hl; simp at hl; subst hl; simpa using hv
        · cases e
          refine ⟨⟨trivial, .of_full ?_⟩, H⟩
          rw [originalNode_leaves]; exact (linesLeaves_spec ..).2
        · cases e
          refine ⟨⟨trivial, .of_full ?_⟩, H⟩
          rw [l2lNode_leaves]; exact (linesLeaves_spec ..).2
        · rename_i eo
          split at e
          · cases e
          · rename_i e1
            have := Sms.node_text e1
            cases e
            exact ⟨⟨this.2.1, .of_full this.2.2⟩, H.set eo⟩
        · rename_i eo
          split at e
          · cases e
          · rename_i e1
            have := ih _ _ _ _ _ H ((H i _ hc eo).2 _ (by simp [Obj.children])) e1
            cases e
            refine ⟨⟨trivial, ?_⟩, this.2⟩
            rw [(prefixNode_leaves _ this.1.1).2]
            exact Quiet.prefixed _ _ _ this.1.2
        · rename_i eo
          exact absurd rfl ((H i _ hc eo).1 _ _ _)
        · rename_i eo
          split at e
          · cases e
          · rename_i e1
            have := eachChild_inv (I := Clean S) (P := fun n : SmNode => Quiet n.leaves) (fun c hcs h a h' Hh e => by
              cases c with
              | str s =>
                cases e
                refine ⟨?_, Hh⟩
                intro l hl _
                simp only [SmNode.leaves, List.mem_cons, List.not_mem_nil, or_false] at hl
                rw [hl]
              | ref j =>
                have := ih _ _ _ _ _ Hh ((H i _ hc eo).2 _ (by simpa [Obj.children] using hcs)) e
                exact ⟨this.1.2, this.2⟩) H e1
            cases e
            refine ⟨⟨trivial, ?_⟩, this.2⟩
            rw [mkVec_leaves]
            intro l hl
            obtain ⟨n, hn, hl⟩ := List.mem_flatMap.1 hl
            exact this.1 n hn l hl

/-- The outermost node has no position. -/
theorem hNode_root (cols mod : Bool) : ∀ (fuel : Nat) (h : Heap) (busy : List Nat) (c : Src)
    (n : SmNode) (h' : Heap), hNode cols mod fuel h busy c = .ok (n, h') →
    ∃ cs ch, n = .node none none none cs ch := by
  intro fuel
  cases fuel with
  | zero => intro h busy c s h' e; cases c <;> cases e
  | succ fuel =>
    intro h busy c n h' e
    cases c with
    | str s => cases e
    | ref i =>
      simp only [hNode] at e
      split at e
      · cases e
      · split at e
        · cases e
        · cases e; exact ⟨_, _, rfl⟩
        · cases e; exact ⟨_, _, rfl⟩
        · cases e; exact ⟨_, _, rfl⟩
        · split at e
          · cases e
          · rename_i e1
            cases e
            have key : ∀ v g, fromStringWithGenerator v g = .ok n → ∃ cs ch, n = .node none none none cs ch := by
              intro v g hg
              unfold fromStringWithGenerator at hg
              dsimp only at hg
              split at hg
              · cases hg
              · cases hg; exact ⟨_, _, rfl⟩
            obtain ⟨g, map, _, ⟨_, hg, _⟩ | ⟨_, _, _, _, _, _, _, _, hg, _⟩⟩ := Sms.node_ok e1
            · exact key _ _ hg
            · exact key _ _ hg
        · split at e
          · cases e
          · cases e; exact ⟨_, _, rfl⟩
        · split at e
          · cases e
          · split at e
            · cases e
            · rename_i e1
              cases e
              simp only [replaceNode] at e1
              split at e1
              · cases e1
              · cases e1; exact ⟨_, _, rfl⟩
        · split at e
          · cases e
          · cases e; exact ⟨_, _, rfl⟩

theorem hNode_isNode (cols mod : Bool) (fuel : Nat) (h : Heap) (busy : List Nat) (c : Src)
    (n : SmNode) (h' : Heap) (e : hNode cols mod fuel h busy c = .ok (n, h')) : n.IsNode := by
  obtain ⟨_, _, rfl⟩ := hNode_root _ _ _ _ _ _ _ _ e
  trivial

/-- No `ReplaceSource` in the object. -/
theorem clean_of_contains {h : Heap} {i : Nat}
    (hc : ∀ k, Contains h k (.ref i) → ∀ c rs b, h[k]? ≠ some (.replace c rs b)) :
    Clean (fun k => Contains h k (.ref i)) h := by
  intro j o hj ho
  refine ⟨fun c rs b e => hc j hj c rs b (e ▸ ho), ?_⟩
  intro c hcm
  cases c with
  | str s => trivial
  | ref k =>
    have : ∀ {s : Src}, Contains h j s → Contains h k s := by
      intro s hs
      induction hs with
      | self => exact .step ho hcm .self
      | step a b _ ih => exact .step a b ih
    exact this hj

/-! ## Leaves -/

mutual
  theorem SmNode.In.leaves {D : Dom} : ∀ {n : SmNode}, n.In D →
      ∀ l ∈ n.leaves, ∀ o, l.2 = some o → D.S o.source ∧ OptIn D.N o.name
    | .str s, _ => by
      intro l hl o ho
      simp only [SmNode.leaves, List.mem_cons, List.not_mem_nil, or_false] at hl
      rw [hl] at ho; cases ho
    | .node pos src name cs ch, .node h1 h2 _ h4 => by
      rw [SmNode.leaves]
      refine NodesIn.leaves h4 ?_
      intro o ho
      cases pos with
      | none => cases ho
      | some p =>
        cases src with
        | none => cases ho
        | some s => cases ho; exact ⟨h1 s rfl, h2⟩
  theorem NodesIn.leaves {D : Dom} : ∀ {ch : List SmNode} {q : Option Origin}, (∀ c ∈ ch, c.In D) →
      (∀ o, q = some o → D.S o.source ∧ OptIn D.N o.name) →
      ∀ l ∈ SmNode.leavesList q ch, ∀ o, l.2 = some o → D.S o.source ∧ OptIn D.N o.name
    | [], _, _, _ => by intro l hl; simp [SmNode.leavesList] at hl
    | .str s :: ch, q, h, hq => by
      intro l hl
      rw [SmNode.leavesList, List.mem_cons] at hl
      rcases hl with rfl | hl
      · exact hq
      · exact NodesIn.leaves (fun c hc => h c (by simp [hc])) hq l hl
    | .node pos src name cs ch :: rest, q, h, hq => by
      intro l hl
      rw [SmNode.leavesList, List.mem_append] at hl
      rcases hl with hl | hl
      · exact SmNode.In.leaves (h _ (by simp)) l hl
      · exact NodesIn.leaves (fun c hc => h c (by simp [hc])) hq l hl
end

/-! ## Names -/

/-- The name of an origin by another array. -/
def renameNameOrigin (ns : List Int) (o : Origin) : Origin :=
  { o with name := o.name.map fun n => (ns[n.toNat]?).getD 0 }

/-- The same of a point. -/
def renameName (ns : List Int) (p : Point) : Point := { p with origin := p.origin.map (renameNameOrigin ns) }

theorem resolve_renameName (ss ns : List Int) (g : Seg) :
    g.resolve ss ns = (g.resolve ss (idTable ns.length)).map (renameName ns) := by
  unfold Seg.resolve
  cases nat? g.col with
  | none => rfl
  | some c =>
    cases g.orig with
    | none => rfl
    | some x =>
      obtain ⟨si, ol, oc, ni⟩ := x
      dsimp only
      cases at? ss si with
      | none => rfl
      | some j =>
        cases nat? ol with
        | none => rfl
        | some ol =>
          cases nat? oc with
          | none => rfl
          | some oc =>
            cases ni with
            | none => rfl
            | some ni =>
              dsimp only
              rw [at?_rename ns ni]
              cases at? (idTable ns.length) ni <;> rfl

theorem resolveAll_renameName (ss ns : List Int) : ∀ gs : List Seg,
    resolveAll ss ns gs = (resolveAll ss (idTable ns.length) gs).map (List.map (renameName ns))
  | [] => rfl
  | g :: gs => by
    simp only [resolveAll]
    rw [resolve_renameName ss ns g, resolveAll_renameName ss ns gs]
    cases g.resolve ss (idTable ns.length) with
    | none => rfl
    | some p => cases resolveAll ss (idTable ns.length) gs <;> rfl

theorem points_renameName (ss ns : List Int) (m : Str) :
    points ss ns m = (points ss (idTable ns.length) m).map (List.map (renameName ns)) := by
  unfold points
  cases decode m with
  | none => rfl
  | some gs => exact resolveAll_renameName ss ns gs

theorem pointAt_renameName (ns : List Int) (l c : Nat) : ∀ ps : List Point,
    pointAt (ps.map (renameName ns)) l c = (pointAt ps l c).map (renameName ns)
  | [] => rfl
  | p :: ps => by
    simp only [List.map_cons, pointAt]
    rw [pointAt_renameName ns l c ps]
    cases pointAt ps l c with
    | some q => rfl
    | none =>
      simp only [Option.map_none]
      have : (renameName ns p).line = p.line ∧ (renameName ns p).col = p.col := ⟨rfl, rfl⟩
      rw [this.1, this.2]
      split <;> rfl

theorem lookup_renameName (ns : List Int) (l c : Nat) (ps : List Point) :
    lookup (ps.map (renameName ns)) l c = (lookup ps l c).map (renameNameOrigin ns) := by
  unfold lookup
  rw [pointAt_renameName]
  cases pointAt ps l c with
  | none => rfl
  | some p => rfl

theorem resolve_nameRange {n : Nat} {ss : List Int} {g : Seg} {p : Point}
    (h : g.resolve ss (idTable n) = some p) :
    ∀ o, p.origin = some o → ∀ x, o.name = some x → x.toNat < n := by
  unfold Seg.resolve at h
  cases hc : nat? g.col with
  | none => rw [hc] at h; cases h
  | some c =>
    cases hg : g.orig with
    | none => rw [hc, hg] at h; cases h; intro o ho; cases ho
    | some x =>
      obtain ⟨si, ol, oc, ni⟩ := x
      rw [hc, hg] at h
      dsimp only at h
      cases ha : at? ss si with
      | none => rw [ha] at h; cases h
      | some j =>
        rw [ha] at h
        cases h1 : nat? ol with
        | none => rw [h1] at h; cases h
        | some ol =>
          cases h2 : nat? oc with
          | none => rw [h1, h2] at h; cases h
          | some oc =>
            rw [h1, h2] at h
            dsimp only at h
            cases ni with
            | none => cases h; intro o ho; cases ho; intro x hx; cases hx
            | some ni =>
              dsimp only at h
              cases hn : at? (idTable n) ni with
              | none => rw [hn] at h; cases h
              | some nm =>
                rw [hn] at h; cases h; intro o ho; cases ho; intro x hx; cases hx
                unfold at? at hn
                split at hn
                · cases hn
                · rw [idTable_get] at hn
                  split at hn
                  · rename_i hlt; cases hn; rw [Int.toNat_natCast]; exact hlt
                  · cases hn

theorem resolveAll_nameRange {n : Nat} {ss : List Int} : ∀ {gs : List Seg} {ps : List Point},
    resolveAll ss (idTable n) gs = some ps →
    ∀ p ∈ ps, ∀ o, p.origin = some o → ∀ x, o.name = some x → x.toNat < n
  | [], ps, h => by cases h; intro p hp; cases hp
  | g :: gs, ps, h => by
    simp only [resolveAll] at h
    split at h
    · rename_i p qs h1 h2
      cases h
      intro q hq
      rcases List.mem_cons.1 hq with rfl | hq
      · exact resolve_nameRange h1
      · exact resolveAll_nameRange h2 q hq
    · cases h

theorem lookup_nameRange {n : Nat} {ss : List Int} {m : Str} {ps : List Point}
    (h : points ss (idTable n) m = some ps) {l c : Nat} {o : Origin} (ho : lookup ps l c = some o) :
    ∀ x, o.name = some x → x.toNat < n := by
  obtain ⟨p, h1, h2⟩ := Option.bind_eq_some_iff.1 ho
  unfold points at h
  cases hd : decode m with
  | none => rw [hd] at h; cases h
  | some gs => rw [hd] at h; exact resolveAll_nameRange h p (pointAt_mem h1) o h2

end WS
