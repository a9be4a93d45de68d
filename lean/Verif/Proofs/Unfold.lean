import Verif.Proofs.Abstract
import Verif.Proofs.Text
import Verif.Spec.Text
/-! # Object graphs as trees -/

namespace WS

mutual
  /-- The text a source stands for. -/
  def Tree.text : Tree → Str
    | .str s => s
    | .raw v => v
    | .original v _ _ => v
    | .l2l v _ _ => v
    | .sms s => s.value
    | .prefixed p t => Spec.indent p t.text
    | .replace t cs => Spec.applyRight t.text ((sortedCalls cs).map Repl.edit)
    | .concat ts => (Tree.texts ts).flatten
  /-- The texts of a list of sources. -/
  def Tree.texts : List Tree → List Str
    | [] => []
    | t :: ts => t.text :: Tree.texts ts
end

mutual
  /-- Nesting depth. -/
  def Tree.depth : Tree → Nat
    | .prefixed _ t => t.depth + 1
    | .replace t _ => t.depth + 1
    | .concat ts => Tree.depths ts + 1
    | _ => 0
  /-- Greatest nesting depth of a list. -/
  def Tree.depths : List Tree → Nat
    | [] => 0
    | t :: ts => max t.depth (Tree.depths ts)
end

theorem Tree.depth_le_depths {ts : List Tree} {k : Nat} {t : Tree} (h : ts[k]? = some t) :
    t.depth ≤ Tree.depths ts := by
  induction ts generalizing k with
  | nil => simp at h
  | cons a ts ih =>
    cases k with
    | zero => simp at h; subst h; simp [Tree.depths]; omega
    | succ k => simp at h; have := ih h; simp [Tree.depths]; omega

/-- `t` is what the object graph `A` looks like from `src`. -/
inductive Unfolds (A : AHeap) : Src → Tree → Prop where
  | str (s : Str) : Unfolds A (.str s) (.str s)
  | raw {i : Nat} {v : Str} : A[i]? = some (.raw v) → Unfolds A (.ref i) (.raw v)
  | original {i : Nat} {v : Str} {n k : Int} : A[i]? = some (.original v n k) →
      Unfolds A (.ref i) (.original v n k)
  | l2l {i : Nat} {v : Str} {n k : Int} : A[i]? = some (.l2l v n k) →
      Unfolds A (.ref i) (.l2l v n k)
  | sms {i : Nat} {s : Sms} : A[i]? = some (.sms s) → Unfolds A (.ref i) (.sms s)
  | prefixed {i : Nat} {p : Str} {c : Src} {t : Tree} : A[i]? = some (.prefixed p c) →
      Unfolds A c t → Unfolds A (.ref i) (.prefixed p t)
  | replace {i : Nat} {c : Src} {cs : List Call} {t : Tree} : A[i]? = some (.replace c cs) →
      Unfolds A c t → Unfolds A (.ref i) (.replace t cs)
  | concat {i : Nat} {cs : List Src} {ts : List Tree} : A[i]? = some (.concat cs) →
      ts.length = cs.length →
      (∀ (k : Nat) (c : Src) (t : Tree), cs[k]? = some c → ts[k]? = some t → Unfolds A c t) →
      Unfolds A (.ref i) (.concat ts)

theorem Unfolds.unique {A : AHeap} {src : Src} {t t' : Tree} (h : Unfolds A src t)
    (h' : Unfolds A src t') : t = t' := by
  induction h generalizing t' with
  | str s => cases h'; rfl
  | raw e =>
    cases h' with
    | original e' => rw [e] at e'; cases e'
    | l2l e' => rw [e] at e'; cases e'
    | sms e' => rw [e] at e'; cases e'
    | prefixed e' => rw [e] at e'; cases e'
    | replace e' => rw [e] at e'; cases e'
    | concat e' => rw [e] at e'; cases e'
    | raw e' => rw [e] at e'; cases e'; rfl
  | original e =>
    cases h' with
    | raw e' => rw [e] at e'; cases e'
    | l2l e' => rw [e] at e'; cases e'
    | sms e' => rw [e] at e'; cases e'
    | prefixed e' => rw [e] at e'; cases e'
    | replace e' => rw [e] at e'; cases e'
    | concat e' => rw [e] at e'; cases e'
    | original e' => rw [e] at e'; cases e'; rfl
  | l2l e =>
    cases h' with
    | raw e' => rw [e] at e'; cases e'
    | original e' => rw [e] at e'; cases e'
    | sms e' => rw [e] at e'; cases e'
    | prefixed e' => rw [e] at e'; cases e'
    | replace e' => rw [e] at e'; cases e'
    | concat e' => rw [e] at e'; cases e'
    | l2l e' => rw [e] at e'; cases e'; rfl
  | sms e =>
    cases h' with
    | raw e' => rw [e] at e'; cases e'
    | original e' => rw [e] at e'; cases e'
    | l2l e' => rw [e] at e'; cases e'
    | prefixed e' => rw [e] at e'; cases e'
    | replace e' => rw [e] at e'; cases e'
    | concat e' => rw [e] at e'; cases e'
    | sms e' => rw [e] at e'; cases e'; rfl
  | prefixed e h ih =>
    cases h' with
    | raw e' => rw [e] at e'; cases e'
    | original e' => rw [e] at e'; cases e'
    | l2l e' => rw [e] at e'; cases e'
    | sms e' => rw [e] at e'; cases e'
    | replace e' => rw [e] at e'; cases e'
    | concat e' => rw [e] at e'; cases e'
    | prefixed e' h' => rw [e] at e'; cases e'; rw [ih h']
  | replace e h ih =>
    cases h' with
    | raw e' => rw [e] at e'; cases e'
    | original e' => rw [e] at e'; cases e'
    | l2l e' => rw [e] at e'; cases e'
    | sms e' => rw [e] at e'; cases e'
    | prefixed e' => rw [e] at e'; cases e'
    | concat e' => rw [e] at e'; cases e'
    | replace e' h' => rw [e] at e'; cases e'; rw [ih h']
  | @concat i cs ts e hl hk ih =>
    cases h' with
    | raw e' => rw [e] at e'; cases e'
    | original e' => rw [e] at e'; cases e'
    | l2l e' => rw [e] at e'; cases e'
    | sms e' => rw [e] at e'; cases e'
    | prefixed e' => rw [e] at e'; cases e'
    | replace e' => rw [e] at e'; cases e'
    | concat e' hl' hk' =>
      rw [e] at e'; cases e'
      congr 1
      apply List.ext_getElem (by omega)
      intro k h1 h2
      exact ih k cs[k] _ (List.getElem?_eq_getElem (by omega)) (List.getElem?_eq_getElem h1)
        (hk' k cs[k] _ (List.getElem?_eq_getElem (by omega)) (List.getElem?_eq_getElem h2))

/-! ## Enough fuel -/

theorem nodup_length_le : ∀ (n : Nat) (l : List Nat), l.Nodup → (∀ x ∈ l, x < n) → l.length ≤ n
  | 0, l, _, h => by
    cases l with
    | nil => simp
    | cons a l => exact absurd (h a (by simp)) (by omega)
  | n + 1, l, hn, h => by
    have h1 : (l.erase n).length ≤ n := by
      apply nodup_length_le n _ (hn.erase n)
      intro x hx
      rw [hn.mem_erase_iff] at hx
      have := h x hx.2
      omega
    rw [List.length_erase] at h1
    split at h1 <;> omega

/-- The state of a read in progress: objects on the path, remaining fuel. -/
structure Going (A : AHeap) (fuel : Nat) (busy : List Nat) (d : Nat) : Prop where
  nodup : busy.Nodup
  lt : ∀ i ∈ busy, i < A.length
  fuel : A.length + 2 ≤ fuel + busy.length
  deeper : ∀ i ∈ busy, ∃ t, Unfolds A (.ref i) t ∧ d < t.depth

theorem Going.pos {A fuel busy d} (g : Going A fuel busy d) : ∃ f, fuel = f + 1 ∧ 0 < f := by
  have := nodup_length_le A.length busy g.nodup g.lt
  have := g.fuel
  exact ⟨fuel - 1, by omega, by omega⟩

theorem Going.notBusy {A fuel busy i t} (g : Going A fuel busy t.depth)
    (h : Unfolds A (.ref i) t) : i ∉ busy := by
  intro hi
  obtain ⟨t', h', hd⟩ := g.deeper i hi
  rw [h.unique h'] at hd
  omega

theorem Going.down {A fuel busy i a t d} (g : Going A (fuel + 1) busy t.depth)
    (h : Unfolds A (.ref i) t) (ha : A[i]? = some a) (hd : d < t.depth) :
    Going A fuel (i :: busy) d := by
  refine ⟨?_, ?_, ?_, ?_⟩
  · exact List.nodup_cons.2 ⟨g.notBusy h, g.nodup⟩
  · intro j hj
    rcases List.mem_cons.1 hj with rfl | hj
    · exact (List.getElem?_eq_some_iff.1 ha).1
    · exact g.lt j hj
  · have := g.fuel; simp; omega
  · intro j hj
    rcases List.mem_cons.1 hj with rfl | hj
    · exact ⟨t, h, hd⟩
    · obtain ⟨t', h', hd'⟩ := g.deeper j hj
      exact ⟨t', h', by omega⟩

theorem Going.start (A : AHeap) (d : Nat) : Going A (A.length + 2) [] d :=
  ⟨List.nodup_nil, by simp, by simp, by simp⟩

/-! ## The reads on trees -/

/-- Sizes, added up the way the code does. -/
def Tree.sizes (ts : List Tree) : Nat := ((Tree.texts ts).map blen).sum

theorem eachA_ok {α : Type _} {f : Src → M α} {g : Tree → α} {cs : List Src} {ts : List Tree}
    (hl : ts.length = cs.length)
    (h : ∀ (k : Nat) (c : Src) (t : Tree), cs[k]? = some c → ts[k]? = some t → f c = .ok (g t)) :
    eachA f cs = .ok (ts.map g) := by
  induction cs generalizing ts with
  | nil => cases ts <;> simp_all [eachA]
  | cons c cs ih =>
    cases ts with
    | nil => simp at hl
    | cons t ts =>
      have h0 := h 0 c t rfl rfl
      have hr := ih (ts := ts) (by simpa using hl) (fun k c t hc ht => h (k + 1) c t hc ht)
      simp [eachA, h0, hr, Except.bind, Except.map]

theorem Tree.texts_eq (ts : List Tree) : Tree.texts ts = ts.map Tree.text := by
  induction ts with
  | nil => rfl
  | cons t ts ih => simp [Tree.texts, ih]

theorem indentRest_of_not_mem {s : Str} (p : Str) (h : '\n' ∉ s) : Spec.indentRest p s = s := by
  induction s with
  | nil => rfl
  | cons c cs ih =>
    simp only [List.mem_cons, not_or] at h
    simp [Spec.indentRest, ih h.2, Ne.symm h.1]

theorem indentRest_line {x : Str} (p r : Str) (h : '\n' ∉ x) :
    Spec.indentRest p (x ++ '\n' :: r) =
      x ++ '\n' :: ((if r ≠ [] then p else []) ++ Spec.indentRest p r) := by
  induction x with
  | nil => simp [Spec.indentRest]
  | cons c cs ih =>
    simp only [List.mem_cons, not_or] at h
    simp [Spec.indentRest, ih h.2, Ne.symm h.1]

theorem prefixLoop_eq (p s : Str) : prefixLoop p (splitKeep '\n' s) = Spec.indentRest p s := by
  induction s using piece_induction '\n' with
  | base s h => simp [splitKeep_of_not_mem h, prefixLoop, indentRest_of_not_mem p h]
  | step x r hx ih =>
    rw [splitKeep_append_sep hx, indentRest_line p r hx, prefixLoop, ih, splitKeep_flatten]
    simp

theorem makePrefixed_eq (p s : Str) : makePrefixed s p true = Spec.indent p s := by
  simp [makePrefixed, Spec.indent, prefixLoop_eq]

theorem Unfolds.source {A : AHeap} {src : Src} {t : Tree} (h : Unfolds A src t) :
    ∀ fuel busy, Going A fuel busy t.depth → aSource fuel A busy src = .ok t.text := by
  induction h with
  | str s =>
    intro fuel busy g
    obtain ⟨f, rfl, _⟩ := g.pos
    rfl
  | prefixed e h ih =>
    intro fuel busy g
    obtain ⟨f, rfl, _⟩ := g.pos
    have u := Unfolds.prefixed e h
    have := ih f _ (g.down u e (by simp [Tree.depth]))
    simp [aSource, g.notBusy u, e, this, Except.map, Tree.text, makePrefixed_eq]
  | replace e h ih =>
    intro fuel busy g
    obtain ⟨f, rfl, _⟩ := g.pos
    have u := Unfolds.replace e h
    have := ih f _ (g.down u e (by simp [Tree.depth]))
    simp [aSource, g.notBusy u, e, this, Except.bind, Tree.text, replaceString_eq]
  | @concat i cs ts e hl hk ih =>
    intro fuel busy g
    obtain ⟨f, rfl, _⟩ := g.pos
    have u := Unfolds.concat e hl hk
    have := eachA_ok (f := aSource f A (i :: busy)) (g := Tree.text) hl (fun k c t hc ht =>
      ih k c t hc ht f _ (g.down u e (by
        have := Tree.depth_le_depths ht
        simp [Tree.depth]; omega)))
    simp [aSource, g.notBusy u, e, this, Except.map, Tree.text, Tree.texts_eq]
  | _ e =>
    intro fuel busy g
    obtain ⟨f, rfl, _⟩ := g.pos
    have nb := g.notBusy (by first | exact .raw e | exact .original e | exact .l2l e | exact .sms e)
    simp [aSource, nb, e, Tree.text]

theorem Unfolds.size {A : AHeap} {src : Src} {t : Tree} (h : Unfolds A src t) :
    ∀ fuel busy, Going A fuel busy t.depth → aSize fuel A busy src = .ok (blen t.text) := by
  induction h with
  | str s =>
    intro fuel busy g
    obtain ⟨f, rfl, _⟩ := g.pos
    rfl
  | prefixed e h ih =>
    intro fuel busy g
    obtain ⟨f, rfl, _⟩ := g.pos
    have u := Unfolds.prefixed e h
    simp [aSize, g.notBusy u, e, u.source _ _ g, Except.map]
  | replace e h ih =>
    intro fuel busy g
    obtain ⟨f, rfl, _⟩ := g.pos
    have u := Unfolds.replace e h
    simp [aSize, g.notBusy u, e, u.source _ _ g, Except.map]
  | @concat i cs ts e hl hk ih =>
    intro fuel busy g
    obtain ⟨f, rfl, _⟩ := g.pos
    have u := Unfolds.concat e hl hk
    have := eachA_ok (f := aSize f A (i :: busy)) (g := fun t => blen t.text) hl (fun k c t hc ht =>
      ih k c t hc ht f _ (g.down u e (by
        have := Tree.depth_le_depths ht
        simp [Tree.depth]; omega)))
    simp [aSize, g.notBusy u, e, this, Except.map, Tree.text, Tree.texts_eq, blen_flatten,
      Function.comp_def]
  | _ e =>
    intro fuel busy g
    obtain ⟨f, rfl, _⟩ := g.pos
    have u := by first | exact Unfolds.raw e | exact Unfolds.original e | exact Unfolds.l2l e | exact Unfolds.sms e
    simp [aSize, g.notBusy u, e, u.source _ _ g, Except.map]

/-- The node of an item of a concatenation (`src/concat_source.rs:66-76`). -/
def Tree.itemNode (cols mod : Bool) : Tree → M SmNode
  | .str s => .ok (.str s)
  | t => t.node cols mod

/-- The list map of an item of a concatenation (`src/concat_source.rs:47-57`). -/
def Tree.itemMap (cols mod : Bool) : Tree → M (Str ⊕ Slm)
  | .str s => .ok (.inl s)
  | t => (t.listMap cols mod).map Sum.inr

/-- Results of a list, or the first failure. -/
def allM {α β : Type _} (f : α → M β) : List α → M (List β)
  | [] => .ok []
  | a :: as => (f a).bind fun b => (allM f as).map (b :: ·)

theorem Tree.nodes_eq (cols mod : Bool) (ts : List Tree) :
    Tree.nodes cols mod ts = allM (Tree.itemNode cols mod) ts := by
  induction ts with
  | nil => rfl
  | cons t ts ih => cases t <;> simp [Tree.nodes, allM, Tree.itemNode, ih, Except.bind]

theorem Tree.listMaps_eq (cols mod : Bool) (ts : List Tree) :
    Tree.listMaps cols mod ts = allM (Tree.itemMap cols mod) ts := by
  induction ts with
  | nil => rfl
  | cons t ts ih =>
    cases t <;> simp only [Tree.listMaps, allM, Tree.itemMap, ih]
    · rfl
    all_goals (cases Tree.listMap cols mod _ <;> rfl)

theorem eachA_all {α : Type _} {f : Src → M α} {g : Tree → M α} {cs : List Src} {ts : List Tree}
    (hl : ts.length = cs.length)
    (h : ∀ (k : Nat) (c : Src) (t : Tree), cs[k]? = some c → ts[k]? = some t → f c = g t) : eachA f cs = allM g ts := by
  induction cs generalizing ts with
  | nil => cases ts <;> simp_all [eachA, allM]
  | cons c cs ih =>
    cases ts with
    | nil => simp at hl
    | cons t ts =>
      have h0 := h 0 c t rfl rfl
      have hr := ih (ts := ts) (by simpa using hl) (fun k c t hc ht => h (k + 1) c t hc ht)
      simp [eachA, allM, h0, hr]

theorem Unfolds.node {A : AHeap} {src : Src} {t : Tree} (cols mod : Bool) (h : Unfolds A src t) :
    ∀ fuel busy, Going A fuel busy t.depth → aNode cols mod fuel A busy src = t.node cols mod := by
  induction h with
  | str s =>
    intro fuel busy g
    obtain ⟨f, rfl, _⟩ := g.pos
    simp [aNode, Tree.node]
  | prefixed e h ih =>
    intro fuel busy g
    obtain ⟨f, rfl, _⟩ := g.pos
    have u := Unfolds.prefixed e h
    have := ih f _ (g.down u e (by simp [Tree.depth]))
    simp [aNode, g.notBusy u, e, this, Tree.node]
  | replace e h ih =>
    intro fuel busy g
    obtain ⟨f, rfl, _⟩ := g.pos
    have u := Unfolds.replace e h
    have := ih f _ (g.down u e (by simp [Tree.depth]))
    simp [aNode, g.notBusy u, e, this, Tree.node]
  | @concat i cs ts e hl hk ih =>
    intro fuel busy g
    obtain ⟨f, rfl, _⟩ := g.pos
    have u := Unfolds.concat e hl hk
    simp only [aNode, g.notBusy u, e, if_false, Tree.node, Tree.nodes_eq]
    congr 1
    refine eachA_all hl (fun k c t hc ht => ?_)
    have h1 := ih k c t hc ht f _ (g.down u e (by
        have := Tree.depth_le_depths ht
        simp [Tree.depth]; omega))
    have h2 := hk k c t hc ht
    cases c with
    | str s => cases h2; rfl
    | ref j =>
      simp only [h1]
      cases h2 <;> rfl
  | _ e =>
    intro fuel busy g
    obtain ⟨f, rfl, _⟩ := g.pos
    have nb := g.notBusy (by first | exact .raw e | exact .original e | exact .l2l e | exact .sms e)
    simp [aNode, nb, e, Tree.node]

theorem Unfolds.listMap {A : AHeap} {src : Src} {t : Tree} (cols mod : Bool) (h : Unfolds A src t) :
    ∀ fuel busy, Going A fuel busy t.depth →
      aListMap cols mod fuel A busy src = t.listMap cols mod := by
  induction h with
  | str s =>
    intro fuel busy g
    obtain ⟨f, rfl, _⟩ := g.pos
    simp [aListMap, Tree.listMap]
  | prefixed e h ih =>
    intro fuel busy g
    obtain ⟨f, rfl, _⟩ := g.pos
    have u := Unfolds.prefixed e h
    have := ih f _ (g.down u e (by simp [Tree.depth]))
    simp [aListMap, g.notBusy u, e, this, Tree.listMap]
  | replace e h ih =>
    intro fuel busy g
    obtain ⟨f, rfl, _⟩ := g.pos
    have u := Unfolds.replace e h
    have := ih f _ (g.down u e (by simp [Tree.depth]))
    simp [aListMap, g.notBusy u, e, this, Tree.listMap]
  | @concat i cs ts e hl hk ih =>
    intro fuel busy g
    obtain ⟨f, rfl, _⟩ := g.pos
    have u := Unfolds.concat e hl hk
    simp only [aListMap, g.notBusy u, e, if_false, Tree.listMap, Tree.listMaps_eq]
    congr 1
    refine eachA_all hl (fun k c t hc ht => ?_)
    have h1 := ih k c t hc ht f _ (g.down u e (by
        have := Tree.depth_le_depths ht
        simp [Tree.depth]; omega))
    have h2 := hk k c t hc ht
    cases c with
    | str s => cases h2; rfl
    | ref j =>
      simp only [h1]
      cases h2 <;> rfl
  | _ e =>
    intro fuel busy g
    obtain ⟨f, rfl, _⟩ := g.pos
    have nb := g.notBusy (by first | exact .raw e | exact .original e | exact .l2l e | exact .sms e)
    simp [aListMap, nb, e, Tree.listMap]

/-! ## The reads of the API -/

theorem api_source {A : AHeap} {h : Heap} (H : Abs A h) {i : Nat} {t : Tree}
    (u : Unfolds A (.ref i) t) : ∃ h', Abs A h' ∧ apiSource h i = .ok (t.text, h') := by
  obtain ⟨h', H', e⟩ := hSource_computes A (budget h) h [] (.ref i) H
  refine ⟨h', H', ?_⟩
  rw [apiSource, e, budget, ← H.1, u.source _ _ (Going.start A _)]; rfl

theorem api_size {A : AHeap} {h : Heap} (H : Abs A h) {i : Nat} {t : Tree}
    (u : Unfolds A (.ref i) t) : ∃ h', Abs A h' ∧ apiSize h i = .ok (blen t.text, h') := by
  obtain ⟨h', H', e⟩ := hSize_computes A (budget h) h [] (.ref i) H
  refine ⟨h', H', ?_⟩
  rw [apiSize, e, budget, ← H.1, u.size _ _ (Going.start A _)]; rfl

theorem api_node {A : AHeap} (hst : A.Stable) {h : Heap} (H : Abs A h) {i : Nat} {t : Tree}
    (cols mod : Bool) (u : Unfolds A (.ref i) t) :
    ∃ h', Abs A h' ∧ apiNode h i cols mod = (t.node cols mod).map fun n => (n, h') := by
  obtain ⟨h', H', e⟩ := hNode_computes A hst cols mod (budget h) h [] (.ref i) H
  refine ⟨h', H', ?_⟩
  rw [apiNode, e, budget, ← H.1, u.node _ _ _ _ (Going.start A _)]

theorem api_listMap {A : AHeap} (hst : A.Stable) {h : Heap} (H : Abs A h) {i : Nat} {t : Tree}
    (cols mod : Bool) (u : Unfolds A (.ref i) t) :
    ∃ h', Abs A h' ∧ apiListMap h i cols mod = (t.listMap cols mod).map fun n => (n, h') := by
  obtain ⟨h', H', e⟩ := hListMap_computes A hst cols mod (budget h) h [] (.ref i) H
  refine ⟨h', H', ?_⟩
  rw [apiListMap, e, budget, ← H.1, u.listMap _ _ _ _ (Going.start A _)]

end WS
