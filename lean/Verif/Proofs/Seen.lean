import Verif.Proofs.Reads
/-! # The tree one read sees

A `SourceMapSource` built from a generator and an inner map changes its answers when it is read
(C40). One `node()` or `list_map()` of an object graph still is that of a tree; only the states of
the `SourceMapSource`s in the tree depend on the reads before. -/

namespace WS

/-- `t` is what the object graph `A` looks like from `src`, each `SourceMapSource` in a state that
reads can have left it in (compare `Unfolds`). -/
inductive Seen (A : AHeap) : Src → Tree → Prop where
  | str (s : Str) : Seen A (.str s) (.str s)
  | raw {i : Nat} {v : Str} : A[i]? = some (.raw v) → Seen A (.ref i) (.raw v)
  | original {i : Nat} {v : Str} {n k : Int} : A[i]? = some (.original v n k) →
      Seen A (.ref i) (.original v n k)
  | l2l {i : Nat} {v : Str} {n k : Int} : A[i]? = some (.l2l v n k) →
      Seen A (.ref i) (.l2l v n k)
  | sms {i : Nat} {s₀ s : Sms} : A[i]? = some (.sms s₀) → Sms.Reads s₀ s → Seen A (.ref i) (.sms s)
  | prefixed {i : Nat} {p : Str} {c : Src} {t : Tree} : A[i]? = some (.prefixed p c) →
      Seen A c t → Seen A (.ref i) (.prefixed p t)
  | replace {i : Nat} {c : Src} {cs : List Call} {t : Tree} : A[i]? = some (.replace c cs) →
      Seen A c t → Seen A (.ref i) (.replace t cs)
  | concat {i : Nat} {cs : List Src} {ts : List Tree} : A[i]? = some (.concat cs) →
      ts.length = cs.length →
      (∀ (k : Nat) (c : Src) (t : Tree), cs[k]? = some c → ts[k]? = some t → Seen A c t) →
      Seen A (.ref i) (.concat ts)

theorem Unfolds.seen {A : AHeap} {src : Src} {t : Tree} (h : Unfolds A src t) : Seen A src t := by
  induction h with
  | str s => exact .str s
  | raw e => exact .raw e
  | original e => exact .original e
  | l2l e => exact .l2l e
  | sms e => exact .sms e .refl
  | prefixed e _ ih => exact .prefixed e ih
  | replace e _ ih => exact .replace e ih
  | concat e hl _ ih => exact .concat e hl ih

/-- The text does not depend on the states. -/
theorem Seen.text {A : AHeap} {src : Src} {t : Tree} (h : Seen A src t) :
    ∃ t', Unfolds A src t' ∧ t'.text = t.text := by
  induction h with
  | str s => exact ⟨_, .str s, rfl⟩
  | raw e => exact ⟨_, .raw e, rfl⟩
  | original e => exact ⟨_, .original e, rfl⟩
  | l2l e => exact ⟨_, .l2l e, rfl⟩
  | sms e hr => exact ⟨_, .sms e, hr.value.symm⟩
  | prefixed e _ ih =>
    obtain ⟨t', h, e'⟩ := ih
    exact ⟨_, .prefixed e h, by simp only [Tree.text, e']⟩
  | replace e _ ih =>
    obtain ⟨t', h, e'⟩ := ih
    exact ⟨_, .replace e h, by simp only [Tree.text, e']⟩
  | @concat i cs ts e hl _ ih =>
    have : ∀ (cs : List Src) (ts : List Tree), ts.length = cs.length →
        (∀ (k : Nat) (c : Src) (t : Tree), cs[k]? = some c → ts[k]? = some t →
          ∃ t', Unfolds A c t' ∧ t'.text = t.text) →
        ∃ ts' : List Tree, ts'.length = cs.length ∧
        (∀ (k : Nat) (c : Src) (t : Tree), cs[k]? = some c → ts'[k]? = some t → Unfolds A c t) ∧
        Tree.texts ts' = Tree.texts ts := by
      intro cs
      induction cs with
      | nil => intro ts hl _; cases ts <;> simp at hl; exact ⟨[], rfl, by simp, rfl⟩
      | cons c cs ih2 =>
        intro ts hl ih
        cases ts with
        | nil => simp at hl
        | cons t ts =>
          obtain ⟨t', h, e'⟩ := ih 0 c t rfl rfl
          obtain ⟨ts', h1, h2, h3⟩ := ih2 ts (by simpa using hl)
            (fun k c t hc ht => ih (k + 1) c t hc ht)
          refine ⟨t' :: ts', by simp [h1], ?_, by simp [Tree.texts, e', h3]⟩
          intro k c t hc ht
          cases k with
          | zero => simp at hc ht; subst hc ht; exact h
          | succ k => exact h2 k c t (by simpa using hc) (by simpa using ht)
    obtain ⟨ts', h1, h2, h3⟩ := this cs ts hl ih
    exact ⟨_, .concat e h1 h2, by simp only [Tree.text, h3]⟩

theorem eachChild_seen {α : Type _} {A : AHeap} {f : Heap → Src → M (α × Heap)} {g : Tree → M α}
    (hf : ∀ h c a h', Abs A h → f h c = .ok (a, h') →
      Abs A h' ∧ ∃ t, Seen A c t ∧ g t = .ok a) (cs : List Src) :
    ∀ h as h', Abs A h → eachChild f h cs = .ok (as, h') →
      ∃ ts : List Tree, ts.length = cs.length ∧
        (∀ (k : Nat) (c : Src) (t : Tree), cs[k]? = some c → ts[k]? = some t → Seen A c t) ∧
        allM g ts = .ok as := by
  induction cs with
  | nil => intro h as h' H e; simp only [eachChild] at e; cases e; exact ⟨[], rfl, by simp, rfl⟩
  | cons c cs ih =>
    intro h as h' H e
    simp only [eachChild] at e
    split at e
    · cases e
    · rename_i a h1 e1
      split at e
      · cases e
      · rename_i as' h2 e2
        cases e
        obtain ⟨H1, t, st, gt⟩ := hf h c a h1 H e1
        obtain ⟨ts, hl, hk, hg⟩ := ih h1 as' h' H1 e2
        refine ⟨t :: ts, by simp [hl], ?_, by simp [allM, gt, hg, Except.bind, Except.map]⟩
        intro k c t hc ht
        cases k with
        | zero => simp at hc ht; subst hc ht; exact st
        | succ k => exact hk k c t (by simpa using hc) (by simpa using ht)

/-- `node()` on the heap is `node()` of a tree. -/
theorem hNode_seen (A : AHeap) (cols mod : Bool) (fuel : Nat) :
    ∀ (h : Heap) (busy : List Nat) (src : Src) (n : SmNode) (h' : Heap), Abs A h →
      hNode cols mod fuel h busy src = .ok (n, h') →
      ∃ t, Seen A src t ∧ t.node cols mod = .ok n := by
  induction fuel with
  | zero => intro h busy src n h' H e; cases e
  | succ fuel ih =>
    intro h busy src n h' H e
    cases src with
    | str s => cases e
    | ref i =>
      simp only [hNode] at e
      split at e
      · cases e
      · cases hA : A[i]? with
        | none => rw [H.getNone hA] at e; cases e
        | some a =>
          obtain ⟨o, ho, hao⟩ := H.getSome hA
          rw [ho] at e
          cases hao with
          | raw v => cases e; exact ⟨_, .raw hA, rfl⟩
          | original v n k => cases e; exact ⟨_, .original hA, rfl⟩
          | l2l v n k => cases e; exact ⟨_, .l2l hA, rfl⟩
          | @sms s₀ s hr =>
            dsimp only at e
            cases hn : s.node with
            | error x => rw [hn] at e; cases e
            | ok q =>
              obtain ⟨n', s'⟩ := q
              rw [hn] at e; cases e
              exact ⟨_, .sms hA hr, by simp [Tree.node, hn, Except.map]⟩
          | prefixed p c =>
            dsimp only at e
            split at e
            · cases e
            · rename_i e1
              cases e
              obtain ⟨t, st, gt⟩ := ih _ _ _ _ _ H e1
              exact ⟨_, .prefixed hA st, by simp [Tree.node, gt, Except.map]⟩
          | @replace c cs rs b hsim =>
            dsimp only at e
            split at e
            · cases e
            · rename_i n1 h1 e1
              obtain ⟨t, st, gt⟩ := ih _ _ _ _ _ (H.set hA (.replace hsim.afterSort)) e1
              split at e
              · cases e
              · rename_i n2 e2
                cases e
                refine ⟨_, .replace hA st, ?_⟩
                rw [hsim.sorted] at e2
                simp [Tree.node, gt, Except.bind, sortedCalls, e2]
          | concat cs =>
            dsimp only at e
            split at e
            · cases e
            · rename_i ns h1 e1
              cases e
              obtain ⟨ts, hl, hk, hg⟩ := eachChild_seen (g := Tree.itemNode cols mod) (A := A) (by
                intro h c a h' H e
                cases c with
                | str s => cases e; exact ⟨H, _, .str s, rfl⟩
                | ref j =>
                  refine ⟨hNode_abs _ _ _ _ _ _ _ _ _ H e, ?_⟩
                  obtain ⟨t, st, gt⟩ := ih _ _ _ _ _ H e
                  refine ⟨t, st, ?_⟩
                  cases st <;> exact gt) cs h _ _ H e1
              exact ⟨_, .concat hA hl hk, by simp [Tree.node, Tree.nodes_eq, hg, Except.map]⟩

/-- `list_map()` on the heap is `list_map()` of a tree. -/
theorem hListMap_seen (A : AHeap) (cols mod : Bool) (fuel : Nat) :
    ∀ (h : Heap) (busy : List Nat) (src : Src) (n : Slm) (h' : Heap), Abs A h →
      hListMap cols mod fuel h busy src = .ok (n, h') →
      ∃ t, Seen A src t ∧ t.listMap cols mod = .ok n := by
  induction fuel with
  | zero => intro h busy src n h' H e; cases e
  | succ fuel ih =>
    intro h busy src n h' H e
    cases src with
    | str s => cases e
    | ref i =>
      simp only [hListMap] at e
      split at e
      · cases e
      · cases hA : A[i]? with
        | none => rw [H.getNone hA] at e; cases e
        | some a =>
          obtain ⟨o, ho, hao⟩ := H.getSome hA
          rw [ho] at e
          cases hao with
          | raw v => cases e; exact ⟨_, .raw hA, rfl⟩
          | original v n k => cases e; exact ⟨_, .original hA, rfl⟩
          | l2l v n k => cases e; exact ⟨_, .l2l hA, rfl⟩
          | @sms s₀ s hr =>
            dsimp only at e
            cases hn : s.listMap mod with
            | error x => rw [hn] at e; cases e
            | ok q =>
              obtain ⟨n', s'⟩ := q
              rw [hn] at e; cases e
              exact ⟨_, .sms hA hr, by simp [Tree.listMap, hn, Except.map]⟩
          | prefixed p c =>
            dsimp only at e
            split at e
            · cases e
            · rename_i e1
              cases e
              obtain ⟨t, st, gt⟩ := ih _ _ _ _ _ H e1
              exact ⟨_, .prefixed hA st, by simp [Tree.listMap, gt, Except.map]⟩
          | @replace c cs rs b hsim =>
            dsimp only at e
            split at e
            · cases e
            · rename_i n1 h1 e1
              obtain ⟨t, st, gt⟩ := ih _ _ _ _ _ (H.set hA (.replace hsim.afterSort)) e1
              cases e
              refine ⟨_, .replace hA st, ?_⟩
              rw [hsim.sorted]
              simp [Tree.listMap, gt, Except.map, sortedCalls]
          | concat cs =>
            dsimp only at e
            split at e
            · cases e
            · rename_i ns h1 e1
              cases e
              obtain ⟨ts, hl, hk, hg⟩ := eachChild_seen (g := Tree.itemMap cols mod) (A := A) (by
                intro h c a h' H e
                cases c with
                | str s => cases e; exact ⟨H, _, .str s, rfl⟩
                | ref j =>
                  dsimp only at e
                  split at e
                  · cases e
                  · rename_i m1 h2 e2
                    cases e
                    refine ⟨hListMap_abs _ _ _ _ _ _ _ _ _ H e2, ?_⟩
                    obtain ⟨t, st, gt⟩ := ih _ _ _ _ _ H e2
                    refine ⟨t, st, ?_⟩
                    cases st <;> simp [Tree.itemMap, gt, Except.map]) cs h _ _ H e1
              exact ⟨_, .concat hA hl hk, by simp [Tree.listMap, Tree.listMaps_eq, hg, Except.map]⟩

end WS
