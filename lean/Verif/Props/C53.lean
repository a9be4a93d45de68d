import Verif.Props.C09Exact
import Verif.Props.C22Objects
import Verif.Props.C38
/-! # C53 Every character keeps the origin its own source gives it, through any nesting -/

namespace WS
open Spec

/-! ## What is claimed -/

/-- Characters, each with what is claimed about where it comes from (`some none`: from nowhere);
`none`: nothing is claimed. -/
abbrev Spec.Claimed := List (Char × Option (Option Origin))

/-- All is claimed. -/
def Spec.claim (m : Marked) : Claimed := m.map fun p => (p.1, some p.2)

/-- Nothing is claimed. -/
def Spec.unclaimed (s : List Char) : Claimed := s.map fun c => (c, none)

/-- `b` is `a` with prefixes, about which nothing is claimed, inserted: at most one at each line start
and none elsewhere. The flag says whether a line starts here. -/
inductive Spec.PrefixedC (pre : List Char) : Bool → Claimed → Claimed → Prop
  | done (s : Bool) : PrefixedC pre s [] []
  | keep {s : Bool} (c : Char) (o : Option (Option Origin)) {a b : Claimed} :
      PrefixedC pre (c == '\n') a b → PrefixedC pre s ((c, o) :: a) ((c, o) :: b)
  | insert {a b : Claimed} : PrefixedC pre false a b → PrefixedC pre true a (unclaimed pre ++ b)

/-- The requests, from left to right, carried out from character `k` on; nothing is claimed about their
texts. -/
def Spec.spliceC (s : Claimed) : Nat → List Request → Claimed
  | k, [] => s.drop k
  | k, r :: rs => (s.take r.start.toNat).drop k ++ unclaimed r.text ++ spliceC s r.stop.toNat rs

/-- Objects that wrap no other. -/
def Spec.Op.Single : Op → Prop
  | .newRaw _ | .newOriginal .. | .newL2l .. | .newSms .. => True
  | _ => False

/-- What the calls of a program claim about the characters of an object. An object that wraps no other
claims what its own map says. A `ConcatSource` claims what its items claim, a `PrefixSource` and a
`ReplaceSource` what the object they wrap claims about the characters that are still there. -/
inductive Spec.Carries (ops : List Op) (h : Heap) (module_ : Bool) : Src → Claimed → Prop
  | str (s : List Char) : Carries ops h module_ (.str s) (claim (uniform none s))
  | single {i : Nat} {op : Op} {r : StringWithSourceMap} {h' : Heap} {ps : List Point} {m : Marked} :
      (created ops)[i]? = some op → Spec.Op.Single op →
      apiSourceAndMap h i true module_ none = .ok (r, h') → mapPoints r.map = some ps →
      m.map Prod.fst = r.source → Attributes ps m → Carries ops h module_ (.ref i) (claim m)
  | concat {i : Nat} {ks : List Claimed} : (created ops)[i]? = some .newConcat →
      ks.length = (items ops i).length →
      (∀ (j : Nat) (c : Src) (k : Claimed), (items ops i)[j]? = some c → ks[j]? = some k →
        Carries ops h module_ c k) →
      Carries ops h module_ (.ref i) ks.flatten
  | prefixed {i : Nat} {p : List Char} {c : Src} {k k' : Claimed} :
      (created ops)[i]? = some (.newPrefix p c) → Carries ops h module_ c k →
      PrefixedC p true k k' → Carries ops h module_ (.ref i) k'
  | replace {i : Nat} {c : Src} {k : Claimed} {es : List Request} :
      (created ops)[i]? = some (.newReplace c) → Arranged (requests ops i) es →
      Carries ops h module_ c k → Carries ops h module_ (.ref i) (spliceC k 0 es)

/-- The requests made to object `k`, if it is a `ReplaceSource`, are whole and disjoint. -/
def Spec.Parted (ops : List Op) (k : Nat) : Prop :=
  ∀ c, (created ops)[k]? = some (.newReplace c) →
    (∀ r ∈ requests ops k, r.Whole) ∧ ∃ es, Arranged (requests ops k) es

/-! ## Claims that hold -/

/-- The characters are the same and what is claimed is so. -/
def Agrees : Claimed → Marked → Prop
  | [], [] => True
  | (c, o) :: k, (d, x) :: m => c = d ∧ (∀ y, o = some y → y = x) ∧ Agrees k m
  | _, _ => False

theorem agrees_claim : ∀ m : Marked, Agrees (claim m) m
  | [] => trivial
  | (c, o) :: m => ⟨rfl, fun y h => (by cases h; rfl), agrees_claim m⟩

theorem agrees_unclaimed (o : Option Origin) : ∀ s : List Char, Agrees (unclaimed s) (uniform o s)
  | [] => trivial
  | c :: s => ⟨rfl, fun y h => (by cases h), agrees_unclaimed o s⟩

theorem Agrees.append : ∀ {a : Claimed} {m : Marked} {b : Claimed} {n : Marked}, Agrees a m →
    Agrees b n → Agrees (a ++ b) (m ++ n)
  | [], [], _, _, _, h => h
  | (_, _) :: _, (_, _) :: _, _, _, h, h' => ⟨h.1, h.2.1, h.2.2.append h'⟩
  | [], _ :: _, _, _, h, _ => h.elim
  | _ :: _, [], _, _, h, _ => h.elim

theorem Agrees.drop : ∀ (n : Nat) {a : Claimed} {m : Marked}, Agrees a m → Agrees (a.drop n) (m.drop n)
  | 0, _, _, h => h
  | _ + 1, [], [], _ => trivial
  | n + 1, (_, _) :: _, (_, _) :: _, h => h.2.2.drop n
  | _ + 1, [], _ :: _, h => h.elim
  | _ + 1, _ :: _, [], h => h.elim

theorem Agrees.take : ∀ (n : Nat) {a : Claimed} {m : Marked}, Agrees a m → Agrees (a.take n) (m.take n)
  | 0, _, _, _ => trivial
  | _ + 1, [], [], _ => trivial
  | n + 1, (_, _) :: _, (_, _) :: _, h => ⟨h.1, h.2.1, h.2.2.take n⟩
  | _ + 1, [], _ :: _, h => h.elim
  | _ + 1, _ :: _, [], h => h.elim

theorem Agrees.fst : ∀ {a : Claimed} {m : Marked}, Agrees a m → a.map Prod.fst = m.map Prod.fst
  | [], [], _ => rfl
  | (_, _) :: _, (_, _) :: _, h => by rw [List.map_cons, List.map_cons, h.2.2.fst, h.1]
  | [], _ :: _, h => h.elim
  | _ :: _, [], h => h.elim

theorem Agrees.get : ∀ {a : Claimed} {m : Marked}, Agrees a m → ∀ {j : Nat} {c : Char}
    {o : Option Origin}, a[j]? = some (c, some o) → m[j]? = some (c, o)
  | [], [], _, _, _, _, e => by cases e
  | (_, _) :: _, (_, _) :: _, h, 0, c, o, e => by
    simp only [List.getElem?_cons_zero, Option.some.injEq, Prod.mk.injEq] at e ⊢
    exact ⟨by rw [← h.1, e.1], (h.2.1 o e.2).symm⟩
  | (_, _) :: _, (_, _) :: _, h, j + 1, c, o, e => by
    simp only [List.getElem?_cons_succ] at e ⊢
    exact h.2.2.get e
  | [], _ :: _, h, _, _, _, _ => h.elim
  | _ :: _, [], h, _, _, _, _ => h.elim

theorem Agrees.prefixed {pre : List Char} {s : Bool} {a b : Marked} (h : Prefixed pre s a b) :
    ∀ {k : Claimed}, Agrees k a → ∃ k', PrefixedC pre s k k' ∧ Agrees k' b := by
  induction h with
  | done s =>
    intro k hk
    cases k with
    | nil => exact ⟨[], .done s, trivial⟩
    | cons _ _ => exact hk.elim
  | keep c o _ ih =>
    intro k hk
    cases k with
    | nil => exact hk.elim
    | cons x k =>
      obtain ⟨d, y⟩ := x
      obtain ⟨h1, h2, h3⟩ := hk
      subst h1
      obtain ⟨k', h4, h5⟩ := ih h3
      exact ⟨(d, y) :: k', .keep d y h4, rfl, h2, h5⟩
  | insert o _ ih =>
    intro k hk
    obtain ⟨k', h4, h5⟩ := ih hk
    exact ⟨unclaimed pre ++ k', .insert h4, (agrees_unclaimed o pre).append h5⟩

theorem Agrees.splice {a : Claimed} {m : Marked} (h : Agrees a m) : ∀ (es : List Request)
    (os : List (Option Origin)) (k : Nat), os.length = es.length →
    Agrees (spliceC a k es) (spliceM m k (List.zipWith Edit.from (es.map Request.edit) os))
  | [], [], k, _ => h.drop k
  | e :: es, o :: os, k, hl => by
    simp only [List.map_cons, List.zipWith_cons_cons, spliceC, spliceM]
    exact (((h.take _).drop _).append (agrees_unclaimed o _)).append
      (h.splice es os _ (by simpa using hl))
  | [], _ :: _, _, hl => by simp at hl
  | _ :: _, [], _, hl => by simp at hl

theorem Agrees.flatten : ∀ {ks : List Claimed} {ms : List Marked}, ks.length = ms.length →
    (∀ (j : Nat) (k : Claimed) (m : Marked), ks[j]? = some k → ms[j]? = some m → Agrees k m) →
    Agrees ks.flatten ms.flatten
  | [], [], _, _ => trivial
  | k :: ks, m :: ms, hl, h => by
    rw [List.flatten_cons, List.flatten_cons]
    exact (h 0 k m rfl rfl).append (Agrees.flatten (by simpa using hl)
      (fun j k m hk hm => h (j + 1) k m hk hm))
  | [], _ :: _, hl, _ => by simp at hl
  | _ :: _, [], hl, _ => by simp at hl

/-- What wraps no other object. -/
def Tree.IsSingle : Tree → Prop
  | .raw _ | .original .. | .l2l .. | .sms _ => True
  | _ => False

theorem single_full {mod : Bool} {t : Tree} (ht : t.IsSingle) {n : SmNode}
    (h : t.node true mod = .ok n) : FullLeaves n.leaves := by
  cases t with
  | raw v =>
    cases h
    rw [rawNode_leaves]
    split
    · exact FullLeaves.nil
    · rename_i hv; intro l hl; simp at hl; subst hl; simpa using hv
  | original v a b => cases h; rw [originalNode_leaves]; exact (linesLeaves_spec ..).2
  | l2l v a b => cases h; rw [l2lNode_leaves]; exact (linesLeaves_spec ..).2
  | sms s =>
    rw [Tree.node] at h
    cases hs : s.node with
    | error e => rw [hs] at h; cases h
    | ok q => rw [hs] at h; cases h; exact (Sms.node_text (n := q.1) (s' := q.2) hs).2.2
  | str s => exact ht.elim
  | prefixed p t => exact ht.elim
  | replace t cs => exact ht.elim
  | concat ts => exact ht.elim

theorem leafOk_of {L : List (Str × Option Origin)} (h1 : ∀ l ∈ L, LineOk l) (h2 : FullLeaves L) :
    ∀ l ∈ L, LeafOk l := fun l hl o ho => ⟨h2 l hl, h1 l hl o ho⟩

section
variable {ops : List Op} {A : AHeap} {h : Heap} {mod : Bool}

theorem single_carries (S : A.Stable) (H : Abs A h)
    (hl : Heap.All Obj.Lined h) {i : Nat} {op : Op} (ho : (created ops)[i]? = some op)
    (hs : Spec.Op.Single op) {t : Tree} (ht : t.IsSingle) (u : Unfolds A (.ref i) t) {n : SmNode}
    (hn : t.node true mod = .ok n) : ∃ k, Carries ops h mod (.ref i) k ∧ Agrees k n.marks := by
  obtain ⟨h', e⟩ := (api_node_iff S H i true mod n).2 ⟨t, u, hn⟩
  have hlined := (hNode_lined _ _ _ _ _ _ _ _ hl e).1
  obtain ⟨r, ps, h1, h2, h3, _, h5⟩ := C09_attribution_partial n none none
    (leafOk_of hlined.leaves (single_full ht hn))
  refine ⟨claim n.marks, .single (r := r) (h' := h') ho hs ?_ h2 ?_ h3, agrees_claim _⟩
  · unfold apiSourceAndMap
    rw [if_pos rfl, e]
    dsimp only
    rw [h1]
  · rw [h5]; exact SmNode.marks_text n

theorem carries_tree (hA : stepAll [] ops = .ok A) (S : A.Stable) (H : Abs A h)
    (hl : Heap.All Obj.Lined h) {src : Src} {t : Tree} (u : Unfolds A src t) :
    (∀ k, Contains h k src → Spec.Parted ops k) → ∀ n, Tree.itemNode true mod t = .ok n →
      ∃ k, Carries ops h mod src k ∧ Agrees k n.marks := by
  have down : ∀ {i : Nat} {a : AObj} {c : Src}, A[i]? = some a →
      (∀ o, AbsObj a o → c ∈ o.children) → (∀ k, Contains h k (.ref i) → Spec.Parted ops k) →
      ∀ k, Contains h k c → Spec.Parted ops k := by
    intro i a c e hm hn k hc
    obtain ⟨o, ho, hao⟩ := H.getSome e
    exact hn k (.step ho (hm o hao) hc)
  have made : ∀ {i : Nat} {a : AObj}, A[i]? = some a →
      ∃ op, (created ops)[i]? = some op ∧ objOf ops i op = some a := by
    intro i a e
    have D := stepAll_described hA i
    rw [e] at D
    cases hc : (created ops)[i]? with
    | none => rw [hc] at D; cases D
    | some op => rw [hc] at D; exact ⟨op, rfl, D.symm⟩
  induction u with
  | str s =>
    intro _ n hn
    cases hn
    refine ⟨_, .str s, ?_⟩
    have : (SmNode.str s).marks = uniform none s := by
      simp [SmNode.marks, SmNode.leaves, marked, uniform]
    rw [this]
    exact agrees_claim _
  | raw e =>
    intro _ n hn
    obtain ⟨op, h1, h2⟩ := made e
    cases op <;> simp [objOf] at h2
    exact single_carries S H hl h1 trivial (t := .raw _) trivial (.raw e) hn
  | original e =>
    intro _ n hn
    obtain ⟨op, h1, h2⟩ := made e
    cases op <;> simp [objOf] at h2
    exact single_carries S H hl h1 trivial (t := .original ..) trivial (.original e) hn
  | l2l e =>
    intro _ n hn
    obtain ⟨op, h1, h2⟩ := made e
    cases op <;> simp [objOf] at h2
    exact single_carries S H hl h1 trivial (t := .l2l ..) trivial (.l2l e) hn
  | sms e =>
    intro _ n hn
    obtain ⟨op, h1, h2⟩ := made e
    cases op <;> simp [objOf] at h2
    exact single_carries S H hl h1 trivial (t := .sms _) trivial (.sms e) hn
  | @prefixed i p c t e hu ih =>
    intro hk n hn
    obtain ⟨op, h1, h2⟩ := made e
    cases op <;> simp [objOf] at h2
    obtain ⟨rfl, rfl⟩ := h2
    change Tree.node true mod (.prefixed _ t) = .ok n at hn
    rw [Tree.node] at hn
    cases hm : t.node true mod with
    | error x => rw [hm] at hn; cases hn
    | ok m =>
      rw [hm] at hn; cases hn
      have hit : Tree.itemNode true mod t = .ok m := by
        cases t <;> first | exact hm | cases hm
      obtain ⟨k, h3, h4⟩ := ih (down e (by intro o ho; cases ho; simp [Obj.children]) hk) m hit
      obtain ⟨k', h5, h6⟩ := h4.prefixed (C37_kept _ m (Tree.node_isNode _ _ t m hm))
      exact ⟨k', .prefixed h1 h3 h5, h6⟩
  | @replace i c cs t e hu ih =>
    intro hk n hn
    obtain ⟨op, h1, h2⟩ := made e
    cases op <;> simp [objOf] at h2
    obtain ⟨rfl, rfl⟩ := h2
    obtain ⟨hw, es, he⟩ := hk i .self _ h1
    change Tree.node true mod (.replace t _) = .ok n at hn
    rw [Tree.node] at hn
    cases hm : t.node true mod with
    | error x => rw [hm] at hn; cases hn
    | ok m =>
      rw [hm] at hn
      have hit : Tree.itemNode true mod t = .ok m := by
        cases t <;> first | exact hm | cases hm
      obtain ⟨k, h3, h4⟩ := ih (down e (by intro o ho; cases ho; simp [Obj.children]) hk) m hit
      obtain ⟨n', os, k1, k2, k3⟩ := C38_kept m (Tree.node_isNode _ _ t m hm) _ es hw he
      change replaceNode m _ = .ok n at hn
      rw [hn] at k1; cases k1
      exact ⟨_, .replace h1 he h3, k3 ▸ h4.splice es os 0 k2⟩
  | @concat i cs ts e hlen hu ih =>
    intro hk n hn
    obtain ⟨op, h1, h2⟩ := made e
    cases op <;> simp [objOf] at h2
    subst h2
    change Tree.node true mod (.concat ts) = .ok n at hn
    rw [Tree.node, Tree.nodes_eq] at hn
    cases hm : allM (Tree.itemNode true mod) ts with
    | error x => rw [hm] at hn; cases hn
    | ok ns =>
      rw [hm] at hn; cases hn
      have key : ∀ (cs : List Src) (ts : List Tree) (ns : List SmNode), ts.length = cs.length →
          allM (Tree.itemNode true mod) ts = .ok ns →
          (∀ (j : Nat) (c : Src) (t : Tree), cs[j]? = some c → ts[j]? = some t →
            ∀ n, Tree.itemNode true mod t = .ok n → ∃ k, Carries ops h mod c k ∧ Agrees k n.marks) →
          ∃ ks : List Claimed, ks.length = cs.length ∧
            (∀ (j : Nat) (c : Src) (k : Claimed), cs[j]? = some c → ks[j]? = some k →
              Carries ops h mod c k) ∧ Agrees ks.flatten (ns.map SmNode.marks).flatten := by
        intro cs
        induction cs with
        | nil =>
          intro ts ns hl hns _
          have : ts = [] := by simpa using hl
          subst this
          cases hns
          exact ⟨[], rfl, fun j c k hc => (by cases hc), trivial⟩
        | cons c cs ihc =>
          intro ts ns hl hns hall
          cases ts with
          | nil => simp at hl
          | cons t ts =>
            rw [allM] at hns
            cases ht : Tree.itemNode true mod t with
            | error x => rw [ht] at hns; cases hns
            | ok n =>
              rw [ht] at hns
              cases hr : allM (Tree.itemNode true mod) ts with
              | error x => rw [hr] at hns; cases hns
              | ok ns' =>
                rw [hr] at hns; cases hns
                obtain ⟨k, g1, g2⟩ := hall 0 c t rfl rfl n ht
                obtain ⟨ks, g3, g4, g5⟩ := ihc ts ns' (by simpa using hl) hr
                  (fun j c t hc ht => hall (j + 1) c t hc ht)
                refine ⟨k :: ks, by simp [g3], ?_, ?_⟩
                · intro j c' k' hc hk'
                  cases j with
                  | zero => simp at hc hk'; subst hc hk'; exact g1
                  | succ j => exact g4 j c' k' (by simpa using hc) (by simpa using hk')
                · rw [List.map_cons, List.flatten_cons, List.flatten_cons]
                  exact g2.append g5
      obtain ⟨ks, g1, g2, g3⟩ := key _ ts ns hlen hm (fun j c t hc ht n hn =>
        ih j c t hc ht (down e (by
          intro o ho; cases ho
          simp only [Obj.children]
          exact List.mem_of_getElem? hc) hk) n hn)
      exact ⟨_, .concat h1 g1 g2, by rw [mkVec_marks]; exact g3⟩

end

/-! ## Where no empty string has an origin -/

/-- Empty strings have no origin. -/
def Quiet (L : List (Str × Option Origin)) : Prop := ∀ l ∈ L, l.1 = [] → l.2 = none

theorem Quiet.of_full {L : List (Str × Option Origin)} (h : FullLeaves L) : Quiet L :=
  fun l hl e => absurd e (h l hl)

theorem indentRest_nil {pre s : Str} (h : Spec.indentRest pre s = []) : s = [] := by
  cases s with
  | nil => rfl
  | cons c s => simp [Spec.indentRest] at h

theorem Quiet.prefixed (pre : Str) : ∀ (L : List (Str × Option Origin)) (b : Bool), Quiet L →
    Quiet (prefixLeaves pre L b)
  | [], _, _ => by intro l hl; cases hl
  | (s, o) :: L, b, h => by
    intro l hl e
    rw [prefixLeaves, List.mem_cons] at hl
    rcases hl with rfl | hl
    · dsimp only at e ⊢
      rw [makePrefixed, prefixLoop_eq, List.append_eq_nil_iff] at e
      exact h (s, o) (by simp) (indentRest_nil e.2)
    · exact Quiet.prefixed pre L _ (fun l hl => h l (by simp [hl])) l hl e

theorem quiet_tree {ops : List Op} {A : AHeap} {h : Heap} {mod : Bool}
    (hA : stepAll [] ops = .ok A) (H : Abs A h) {src : Src} {t : Tree} (u : Unfolds A src t) :
    (∀ k, Contains h k src → ∀ c, (created ops)[k]? ≠ some (.newReplace c)) →
    ∀ n, Tree.itemNode true mod t = .ok n → Quiet n.leaves := by
  have down : ∀ {i : Nat} {a : AObj} {c : Src}, A[i]? = some a →
      (∀ o, AbsObj a o → c ∈ o.children) →
      (∀ k, Contains h k (.ref i) → ∀ d, (created ops)[k]? ≠ some (.newReplace d)) →
      ∀ k, Contains h k c → ∀ d, (created ops)[k]? ≠ some (.newReplace d) := by
    intro i a c e hm hn k hc
    obtain ⟨o, ho, hao⟩ := H.getSome e
    exact hn k (.step ho (hm o hao) hc)
  induction u with
  | str s =>
    intro _ n hn
    cases hn
    intro l hl _
    simp only [SmNode.leaves, List.mem_cons, List.not_mem_nil, or_false] at hl
    rw [hl]
  | raw e =>
    intro _ n hn
    exact .of_full (single_full (mod := mod) (t := .raw _) trivial hn)
  | original e =>
    intro _ n hn
    exact .of_full (single_full (mod := mod) (t := .original ..) trivial hn)
  | l2l e =>
    intro _ n hn
    exact .of_full (single_full (mod := mod) (t := .l2l ..) trivial hn)
  | sms e =>
    intro _ n hn
    exact .of_full (single_full (mod := mod) (t := .sms _) trivial hn)
  | @prefixed i p c t e hu ih =>
    intro hk n hn
    change Tree.node true mod (.prefixed _ t) = .ok n at hn
    rw [Tree.node] at hn
    cases hm : t.node true mod with
    | error x => rw [hm] at hn; cases hn
    | ok m =>
      rw [hm] at hn; cases hn
      have hit : Tree.itemNode true mod t = .ok m := by
        cases t <;> first | exact hm | cases hm
      have := ih (down e (by intro o ho; cases ho; simp [Obj.children]) hk) m hit
      change Quiet (prefixNode p m).leaves
      rw [(prefixNode_leaves p (Tree.node_isNode _ _ t m hm)).2]
      exact Quiet.prefixed p _ _ this
  | @replace i c cs t e hu ih =>
    intro hk n hn
    have D := stepAll_described hA i
    rw [e] at D
    cases hc : (created ops)[i]? with
    | none => rw [hc] at D; cases D
    | some op =>
      rw [hc] at D
      have D : some (AObj.replace c cs) = objOf ops i op := D
      cases op <;> simp [objOf] at D
      exact absurd hc (hk i .self _)
  | @concat i cs ts e hlen hu ih =>
    intro hk n hn
    change Tree.node true mod (.concat ts) = .ok n at hn
    rw [Tree.node, Tree.nodes_eq] at hn
    cases hm : allM (Tree.itemNode true mod) ts with
    | error x => rw [hm] at hn; cases hn
    | ok ns =>
      rw [hm] at hn; cases hn
      rw [mkVec_leaves]
      intro l hl
      obtain ⟨n, hn, hl⟩ := List.mem_flatMap.1 hl
      obtain ⟨j, t, hj, hnt⟩ := allM_mem hm n hn
      have hlt : j < cs.length := by rw [← hlen]; exact (List.getElem?_eq_some_iff.1 hj).1
      exact ih j cs[j] t (List.getElem?_eq_getElem hlt) hj (down e (by
        intro o ho; cases ho
        simp only [Obj.children]
        exact List.getElem_mem hlt) hk) n hnt l hl

/-! ## The theorems -/

/-- C53 for all objects. Every character that comes from an object that wraps no other is looked up, in
the map of the whole, exactly where that object's own map says it comes from, however the object was
nested, prefixed and edited. The condition `Overruled` (see C09) concerns the empty strings that
replacements leave in the node; without it the claim is false (`C53_not_general`). -/
theorem C53_partial (ops : List Op) (h h' : Heap) (i : Nat) (module_ : Bool) (n : SmNode)
    (hrun : run ops = .ok h) (hst : ∀ op ∈ ops, Spec.Op.StableMap op)
    (hf : ∀ op ∈ ops, Spec.Op.Fits op) (hp : ∀ k, Contains h k (.ref i) → Spec.Parted ops k)
    (hn : apiNode h i true module_ = .ok (n, h')) (ho : Overruled none [] n.leaves) :
    ∃ r ps k, apiSourceAndMap h i true module_ none = .ok (r, h') ∧ mapPoints r.map = some ps ∧
      Carries ops h module_ (.ref i) k ∧ k.map Prod.fst = r.source ∧
      ∀ (j : Nat) (c : Char) (o : Option Origin), k[j]? = some (c, some o) →
        lookup ps (posAfter (r.source.take j)).1 (posAfter (r.source.take j)).2 = o := by
  obtain ⟨A, hA, H⟩ := run_abs hrun
  have hlh := run_lined hf hrun
  have hl := (hNode_lined _ _ _ _ _ _ _ _ hlh hn).1
  obtain ⟨t, u, ht⟩ := (api_node_iff (stable_of_ops hA hst) H i true module_ n).1 ⟨h', hn⟩
  have hit : Tree.itemNode true module_ t = .ok n := by
    cases t <;> first | exact ht | cases ht
  obtain ⟨k, h1, h2⟩ := carries_tree hA (stable_of_ops hA hst) H hlh u hp n hit
  obtain ⟨r, ps, h3, h4, h5, _, h6⟩ := C09_exact n none none hl.leaves
  have hfst : n.marks.map Prod.fst = r.source := by rw [h5]; exact SmNode.marks_text n
  refine ⟨r, ps, k, ?_, h4, h1, h2.fst.trans hfst, ?_⟩
  · unfold apiSourceAndMap
    rw [if_pos rfl, hn]
    dsimp only
    rw [h3]
  · intro j c o hj
    have := h6.2 ho j c o (h2.get hj)
    rwa [List.map_take, hfst] at this

/-- C53 for objects without a `ReplaceSource` anywhere in them: no condition on nodes. -/
theorem C53_unreplaced (ops : List Op) (h h' : Heap) (i : Nat) (module_ : Bool) (n : SmNode)
    (hrun : run ops = .ok h) (hst : ∀ op ∈ ops, Spec.Op.StableMap op)
    (hf : ∀ op ∈ ops, Spec.Op.Fits op)
    (hp : ∀ k, Contains h k (.ref i) → ∀ c, (created ops)[k]? ≠ some (.newReplace c))
    (hn : apiNode h i true module_ = .ok (n, h')) :
    ∃ r ps k, apiSourceAndMap h i true module_ none = .ok (r, h') ∧ mapPoints r.map = some ps ∧
      Carries ops h module_ (.ref i) k ∧ k.map Prod.fst = r.source ∧
      ∀ (j : Nat) (c : Char) (o : Option Origin), k[j]? = some (c, some o) →
        lookup ps (posAfter (r.source.take j)).1 (posAfter (r.source.take j)).2 = o := by
  refine C53_partial ops h h' i module_ n hrun hst hf (fun k hk c hc => absurd hc (hp k hk c)) hn ?_
  obtain ⟨A, hA, H⟩ := run_abs hrun
  obtain ⟨t, u, ht⟩ := (api_node_iff (stable_of_ops hA hst) H i true module_ n).1 ⟨h', hn⟩
  have hit : Tree.itemNode true module_ t = .ok n := by
    cases t <;> first | exact ht | cases ht
  exact overruled_of_full _ _ _ (by simp) (quiet_tree hA H u hp n hit)

/-! ## A deleted statement and a string after it -/

/-- The second statement is deleted, then a string is appended. -/
def C53_ghost : List Op :=
  [.newOriginal "ab;cd;".toList 5 6, .newReplace (.ref 0), .replace 1 3 5 [] 0 0,
   .newConcat, .add 2 (.ref 1), .add 2 (.str "x".toList)]

/-- Without the condition the claim is false: the program's calls claim no origin for the string `x`,
but the map gives it the place of the deleted statement. -/
theorem C53_not_general :
    (∀ op ∈ C53_ghost, Spec.Op.StableMap op) ∧ (∀ op ∈ C53_ghost, Spec.Op.Fits op) ∧
    (created C53_ghost)[2]? = some .newConcat ∧
    (items C53_ghost 2) = [.ref 1, .str "x".toList] ∧
    ((run C53_ghost).toOption.bind fun h => (apiSourceAndMap h 2 true true none).toOption.bind
      fun r => (mapPoints r.1.map).map fun ps => (r.1.source, lookup ps 1 3)) =
      some ("ab;x".toList, some ⟨5, 1, 3, none⟩) := by
  refine ⟨?_, ?_, by decide +kernel, by decide +kernel, by decide +kernel⟩ <;>
  · intro op hop
    simp only [C53_ghost, List.mem_cons, List.not_mem_nil, or_false] at hop
    rcases hop with rfl | rfl | rfl | rfl | rfl | rfl <;>
      first | trivial | (unfold Spec.Op.Fits; simp [Spec.FewLines]; decide +kernel)

/-! Non-trivial case: an `OriginalSource` and a `SourceMapSource`, edited, prefixed and concatenated. -/

/-- A replaced word, a prefix, a concatenation. -/
def C53_history : List Op :=
  [.newOriginal "ab;cd\n".toList 5 6, .newReplace (.ref 0), .replace 1 1 1 "Y".toList 0 0,
   .newSms "ef\n".toList 7 8 ⟨some ⟨[9], [-1], [], "AAAA,CAEA".toList⟩, none⟩ none none,
   .newConcat, .add 3 (.ref 1), .add 3 (.ref 2), .newPrefix "> ".toList (.ref 3)]

example : ((run C53_history).toOption.bind fun h => (apiSourceAndMap h 4 true true none).toOption.bind
      fun r => (mapPoints r.1.map).map fun ps =>
        (r.1.source, [lookup ps 1 2, lookup ps 1 5, lookup ps 2 2, lookup ps 2 3])) =
    some ("> aY;cd\n> ef\n".toList, [some ⟨5, 1, 0, none⟩, some ⟨5, 1, 3, none⟩,
      some ⟨9, 1, 0, none⟩, some ⟨9, 3, 0, none⟩]) := by decide +kernel

example : ∀ k, Spec.Parted C53_history k := by
  intro k c hc
  have e : created C53_history = [.newOriginal "ab;cd\n".toList 5 6, .newReplace (.ref 0),
      .newSms "ef\n".toList 7 8 ⟨some ⟨[9], [-1], [], "AAAA,CAEA".toList⟩, none⟩ none none,
      .newConcat, .newPrefix "> ".toList (.ref 3)] := rfl
  rw [e] at hc
  have : k = 1 := by
    match k, hc with
    | 1, _ => rfl
    | 0, h | 2, h | 3, h | 4, h => cases h
    | k + 5, h => cases h
  subst this
  exact ⟨by unfold Request.Whole; decide +kernel, requests C53_history 1, .refl _, by decide +kernel, fun _ => rfl⟩
example : ((run C53_history).toOption.bind fun h => (apiNode h 4 true true).toOption.map fun n =>
    decide (Overruled none [] n.1.leaves)) = some true := by decide +kernel
example : (∀ op ∈ C53_history, Spec.Op.StableMap op) ∧ ∀ op ∈ C53_history, Spec.Op.Fits op := by
  constructor <;>
  · intro op hop
    simp only [C53_history, List.mem_cons, List.not_mem_nil, or_false] at hop
    rcases hop with rfl | rfl | rfl | rfl | rfl | rfl | rfl | rfl <;>
      first
      | trivial
      | exact Or.inl rfl
      | exact ⟨fun g hg => (by cases hg), fun x hx => (by cases hx)⟩
      | (unfold Spec.Op.Fits; simp [Spec.FewLines]; decide +kernel)

end WS
