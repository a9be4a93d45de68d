import Verif.Proofs.NodeText
import Verif.Proofs.Seen
/-! # What the text of a node tree depends on

The text `PrefixSource::node` produces depends on where the leaves of the wrapped tree end in empty
strings, not on how the rest of the text is cut into leaves nor on the origins. -/

namespace WS
open Spec

/-- Leaf lists that differ only in origins and in cuts before non-empty leaves. -/
inductive LeafSim : List (Str × Option Origin) → List (Str × Option Origin) → Prop where
  | origins {L M : List (Str × Option Origin)} : L.map Prod.fst = M.map Prod.fst → LeafSim L M
  | merge (A B : List (Str × Option Origin)) (a b : Str) (o p q : Option Origin) : b ≠ [] →
      LeafSim (A ++ (a, o) :: (b, p) :: B) (A ++ (a ++ b, q) :: B)
  | symm {L M : List (Str × Option Origin)} : LeafSim L M → LeafSim M L
  | trans {L M N : List (Str × Option Origin)} : LeafSim L M → LeafSim M N → LeafSim L N

theorem LeafSim.refl (L : List (Str × Option Origin)) : LeafSim L L := .origins rfl

theorem LeafSim.text {L M : List (Str × Option Origin)} (h : LeafSim L M) : leavesText L = leavesText M := by
  induction h with
  | origins h => simp only [leavesText, h]
  | merge => simp [leavesText]
  | symm _ ih => exact ih.symm
  | trans _ _ i j => exact i.trans j

theorem LeafSim.appendRight {L M : List (Str × Option Origin)} (h : LeafSim L M)
    (C : List (Str × Option Origin)) : LeafSim (L ++ C) (M ++ C) := by
  induction h with
  | origins h => exact .origins (by simp [h])
  | merge A B a b o p q hb =>
    have := LeafSim.merge A (B ++ C) a b o p q hb
    simpa using this
  | symm _ ih => exact ih.symm
  | trans _ _ i j => exact i.trans j

theorem LeafSim.appendLeft {L M : List (Str × Option Origin)} (h : LeafSim L M)
    (C : List (Str × Option Origin)) : LeafSim (C ++ L) (C ++ M) := by
  induction h with
  | origins h => exact .origins (by simp [h])
  | merge A B a b o p q hb =>
    have := LeafSim.merge (C ++ A) B a b o p q hb
    simpa using this
  | symm _ ih => exact ih.symm
  | trans _ _ i j => exact i.trans j

theorem LeafSim.append {L M L' M' : List (Str × Option Origin)} (h : LeafSim L M) (h' : LeafSim L' M') :
    LeafSim (L ++ L') (M ++ M') :=
  (h.appendRight L').trans (h'.appendLeft M)

/-- Non-empty leaves can be joined into one. -/
theorem sim_full : ∀ (L : List (Str × Option Origin)), FullLeaves L → L ≠ [] →
    LeafSim L [(leavesText L, none)]
  | [], _, h => absurd rfl h
  | [(s, o)], _, _ => .origins (by simp [leavesText])
  | (s, o) :: (t, p) :: L, h, _ => by
    have ih := sim_full ((t, p) :: L) (fun l hl => h l (by simp [hl])) (by simp)
    refine (ih.appendLeft [(s, o)]).trans ?_
    have hne : leavesText ((t, p) :: L) ≠ [] := by
      have := h (t, p) (by simp)
      simp [leavesText, this]
    have := LeafSim.merge [] [] s (leavesText ((t, p) :: L)) o none none hne
    simpa [leavesText] using this

theorem LeafSim.ofFull {L M : List (Str × Option Origin)} (hL : FullLeaves L) (hM : FullLeaves M)
    (h : leavesText L = leavesText M) : LeafSim L M := by
  by_cases he : leavesText L = []
  · have nil : ∀ {L}, FullLeaves L → leavesText L = [] → L = [] := by
      intro L hL h
      cases L with
      | nil => rfl
      | cons l L => exact absurd (by simp [leavesText] at h; exact h.1) (hL l (by simp))
    rw [nil hL he, nil hM (h ▸ he)]
    exact .refl _
  · have := sim_full M hM (FullLeaves.ne_nil (h ▸ he))
    exact (sim_full L hL (FullLeaves.ne_nil he)).trans (h ▸ this.symm)

/-! ## Prefixing -/

theorem makePrefixed_append (pre a b : Str) (s : Bool) (hb : b ≠ []) :
    makePrefixed a pre s ++ makePrefixed b pre (endsNl a) = makePrefixed (a ++ b) pre s := by
  simp only [makePrefixed, prefixLoop_eq, indentRest_append]
  cases endsNl a <;> simp [hb]

theorem makePrefixed_ne (pre b : Str) (s : Bool) (hb : b ≠ []) : makePrefixed b pre s ≠ [] := by
  cases b with
  | nil => exact absurd rfl hb
  | cons c b => simp [makePrefixed, prefixLoop_eq, Spec.indentRest]

theorem prefixLeaves_fst (pre : Str) : ∀ {L M : List (Str × Option Origin)} (s : Bool),
    L.map Prod.fst = M.map Prod.fst →
    (prefixLeaves pre L s).map Prod.fst = (prefixLeaves pre M s).map Prod.fst ∧
    prefixEnd L s = prefixEnd M s
  | [], [], _, _ => ⟨rfl, rfl⟩
  | [], _ :: _, _, h => by simp at h
  | _ :: _, [], _, h => by simp at h
  | (a, o) :: L, (b, p) :: M, s, h => by
    simp only [List.map_cons, List.cons.injEq] at h
    obtain ⟨rfl, h⟩ := h
    have ih := prefixLeaves_fst pre (endsNl a) h
    simp [prefixLeaves, prefixEnd, ih.1, ih.2]

theorem LeafSim.prefixed {L M : List (Str × Option Origin)} (h : LeafSim L M) (pre : Str) :
    ∀ s, LeafSim (prefixLeaves pre L s) (prefixLeaves pre M s) := by
  induction h with
  | origins h => exact fun s => .origins (prefixLeaves_fst pre s h).1
  | merge A B a b o p q hb =>
    intro s
    rw [prefixLeaves_append, prefixLeaves_append]
    simp only [prefixLeaves]
    rw [← makePrefixed_append pre a b _ hb, endsNl_append a b hb]
    exact .merge _ _ _ _ _ _ _ (makePrefixed_ne pre b _ hb)
  | symm _ ih => exact fun s => (ih s).symm
  | trans _ _ i j => exact fun s => (i s).trans (j s)

/-! ## Splitting -/

/-- Splits alike. -/
def SimSplit : Except Int (List (Str × Option Origin) × List (Str × Option Origin)) →
    Except Int (List (Str × Option Origin) × List (Str × Option Origin)) → Prop
  | .ok x, .ok y => LeafSim x.1 y.1 ∧ LeafSim x.2 y.2
  | .error p, .error q => p = q
  | _, _ => False

theorem SimSplit.symm {x y : Except Int (List (Str × Option Origin) × List (Str × Option Origin))}
    (h : SimSplit x y) : SimSplit y x := by
  cases x <;> cases y
  · exact Eq.symm h
  · exact h
  · exact h
  · exact ⟨h.1.symm, h.2.symm⟩

theorem SimSplit.trans {x y z : Except Int (List (Str × Option Origin) × List (Str × Option Origin))}
    (h : SimSplit x y) (h' : SimSplit y z) : SimSplit x z := by
  cases x <;> cases y <;> cases z <;> first | exact Eq.trans h h' | exact h.elim | exact h'.elim | skip
  exact ⟨h.1.trans h'.1, h.2.trans h'.2⟩

theorem simSplit_origins : ∀ {L M : List (Str × Option Origin)} (pos : Int),
    L.map Prod.fst = M.map Prod.fst → SimSplit (splitLeaves L pos) (splitLeaves M pos)
  | [], [], _, _ => rfl
  | [], _ :: _, _, h => by simp at h
  | _ :: _, [], _, h => by simp at h
  | (a, o) :: L, (b, p) :: M, pos, h => by
    simp only [List.map_cons, List.cons.injEq] at h
    obtain ⟨rfl, h⟩ := h
    simp only [splitLeaves]
    cases splitChars a pos with
    | ok x => exact ⟨.origins (by simp), .origins (by simp [h])⟩
    | error q =>
      have ih := simSplit_origins q h
      revert ih
      simp only
      rcases splitLeaves L q with _ | ⟨l, r⟩ <;> rcases splitLeaves M q with _ | ⟨l', r'⟩
      · exact id
      · exact id
      · exact id
      · rintro ⟨h1, h2⟩
        refine ⟨?_, h2⟩
        exact (h1.appendLeft [(a, o)]).trans (.origins (by simp))

theorem splitChars_append (a b : Str) (pos : Int) :
    splitChars (a ++ b) pos =
      match splitChars a pos with
      | .ok (x, y) => .ok (x, y ++ b)
      | .error p =>
        match splitChars b p with
        | .ok (x, y) => .ok (a ++ x, y)
        | .error q => .error q := by
  unfold splitChars
  by_cases h : pos ≤ 0
  · simp [h]
  · by_cases h1 : pos.toNat ≤ a.length
    · have h2 : pos.toNat ≤ (a ++ b).length := by simp; omega
      simp only [h, h1, h2, if_true, if_false]
      rw [List.take_append_of_le_length h1, List.drop_append_of_le_length h1]
    · have h3 : ¬ pos - a.length ≤ 0 := by omega
      simp only [h, h1, h3, if_false]
      have h5 : (pos - a.length).toNat = pos.toNat - a.length := by omega
      by_cases h4 : pos.toNat ≤ (a ++ b).length
      · have h4' : (pos - a.length).toNat ≤ b.length := by simp at h4; omega
        simp only [h4, h4', if_true]
        rw [List.take_append, List.drop_append, List.take_of_length_le (by omega),
          List.drop_of_length_le (by omega), h5]
        rfl
      · have h4' : ¬ (pos - a.length).toNat ≤ b.length := by simp at h4; omega
        rw [if_neg h4, if_neg h4', List.length_append]
        simp only
        congr 1
        omega

theorem LeafSim.split {L M : List (Str × Option Origin)} (h : LeafSim L M) :
    ∀ pos, SimSplit (splitLeaves L pos) (splitLeaves M pos) := by
  induction h with
  | origins h => exact fun pos => simSplit_origins pos h
  | merge A B a b o p q hb =>
    intro pos
    rw [splitLeaves_append, splitLeaves_append]
    rcases splitLeaves A pos with pos | ⟨l, r⟩
    · simp only [splitLeaves]
      rw [splitChars_append]
      have ha := splitChars_marks a pos
      revert ha
      rcases splitChars a pos with pos' | ⟨x, y⟩
      · rintro ⟨_, ha⟩
        dsimp only
        have hm := splitChars_marks b pos'
        revert hm
        rcases hbp : splitChars b pos' with pos'' | ⟨x, y⟩
        · intro _
          dsimp only
          rcases splitLeaves B pos'' with _ | ⟨l, r⟩
          · rfl
          · exact ⟨.merge A l a b o p q hb, .refl _⟩
        · rintro ⟨hm1, hm2⟩
          have hx : x ≠ [] := by
            rintro rfl
            simp at hm2
            omega
          exact ⟨.merge A [] a x o p q hx, .origins rfl⟩
      · intro _
        exact ⟨.origins (by simp), LeafSim.merge [] B y b o p q hb⟩
    · exact ⟨.refl _, .merge r B a b o p q hb⟩
  | symm _ ih => exact fun s => (ih s).symm
  | trans _ _ i j => exact fun s => (i s).trans (j s)

/-! ## Replacing -/

theorem sim_replLeaf (o p : Option Origin) (t : Str) : LeafSim (replLeaf o t) (replLeaf p t) := by
  unfold replLeaf
  split
  · exact .refl _
  · exact .origins rfl

theorem LeafSim.replaced : ∀ (rs : List Repl) {L M : List (Str × Option Origin)}, LeafSim L M →
    LeafSim (leafLoop L rs) (leafLoop M rs)
  | [], _, _, h => h
  | r :: rs, L, M, h => by
    have h1 := h.split r.stop
    have h2 := h.split r.start
    rw [leafLoop, leafLoop]
    revert h1
    rcases splitLeaves L r.stop with _ | ⟨l1, r1⟩ <;> rcases splitLeaves M r.stop with _ | ⟨l1', r1'⟩
    · intro _
      revert h2
      rcases splitLeaves L r.start with _ | ⟨l2, r2⟩ <;>
        rcases splitLeaves M r.start with _ | ⟨l2', r2'⟩
      · exact fun _ => (LeafSim.replaced rs h).appendRight _
      · exact False.elim
      · exact False.elim
      · exact fun k => (LeafSim.replaced rs k.1).append (sim_replLeaf _ _ _)
    · exact False.elim
    · exact False.elim
    · rintro ⟨k1, k2⟩
      have h3 := k1.split r.start
      revert h3
      simp only
      rcases splitLeaves l1 r.start with _ | ⟨l2, r2⟩ <;>
        rcases splitLeaves l1' r.start with _ | ⟨l2', r2'⟩
      · exact fun _ => (LeafSim.replaced rs k1).append ((sim_replLeaf _ _ _).append k2)
      · exact False.elim
      · exact False.elim
      · exact fun k => (LeafSim.replaced rs k.1).append ((sim_replLeaf _ _ _).append k2)

/-! ## Trees -/

theorem allM_get {α β : Type _} {f : α → M β} : ∀ {as : List α} {bs : List β}, allM f as = .ok bs →
    bs.length = as.length ∧ ∀ (k : Nat) (a : α), as[k]? = some a → ∃ b, bs[k]? = some b ∧ f a = .ok b
  | [], bs, h => by cases h; exact ⟨rfl, fun k a h => by simp at h⟩
  | x :: as, bs, h => by
    rw [allM] at h
    cases hx : f x with
    | error e => rw [hx] at h; cases h
    | ok b =>
      rw [hx] at h
      cases hr : allM f as with
      | error e => simp only [Except.bind] at h; rw [hr] at h; cases h
      | ok bs' =>
        simp only [Except.bind] at h; rw [hr] at h; cases h
        obtain ⟨h1, h2⟩ := allM_get hr
        refine ⟨by simp [h1], ?_⟩
        intro k a ha
        cases k with
        | zero => simp at ha; subst ha; exact ⟨b, rfl, hx⟩
        | succ k => exact h2 k a (by simpa using ha)

theorem sim_flatMap : ∀ {ns ms : List SmNode}, ns.length = ms.length →
    (∀ (k : Nat) (n m : SmNode), ns[k]? = some n → ms[k]? = some m → LeafSim n.leaves m.leaves) →
    LeafSim (ns.flatMap SmNode.leaves) (ms.flatMap SmNode.leaves)
  | [], [], _, _ => .refl _
  | [], _ :: _, h, _ => by simp at h
  | _ :: _, [], h, _ => by simp at h
  | n :: ns, m :: ms, h, hk => by
    simp only [List.flatMap_cons]
    exact (hk 0 n m rfl rfl).append (sim_flatMap (by simpa using h) fun k a b ha hb =>
      hk (k + 1) a b (by simpa using ha) (by simpa using hb))

/-- Two looks at the same object, at whatever states of the `SourceMapSource`s inside: the leaves
differ in origins and harmless cuts only. -/
theorem Seen.sim {A : AHeap} {cols mod : Bool} {src : Src} {t u : Tree} (ht : Seen A src t)
    (hu : Seen A src u) {n m : SmNode} (hn : t.node cols mod = .ok n) (hm : u.node cols mod = .ok m) :
    n.IsNode ∧ m.IsNode ∧ LeafSim n.leaves m.leaves := by
  induction ht generalizing u n m with
  | str s => cases hn
  | raw e =>
    cases hu with
    | raw e' =>
      rw [e] at e'; cases e'; cases hn; cases hm
      exact ⟨trivial, trivial, .refl _⟩
    | _ e' => rw [e] at e'; cases e'
  | original e =>
    cases hu with
    | original e' =>
      rw [e] at e'; cases e'; cases hn; cases hm
      exact ⟨trivial, trivial, .refl _⟩
    | _ e' => rw [e] at e'; cases e'
  | l2l e =>
    cases hu with
    | l2l e' =>
      rw [e] at e'; cases e'; cases hn; cases hm
      exact ⟨trivial, trivial, .refl _⟩
    | _ e' => rw [e] at e'; cases e'
  | @sms i s₀ s e hr =>
    cases hu with
    | @sms _ s₀ s' e' hr' =>
      rw [e] at e'; cases e'
      rw [Tree.node] at hn hm
      cases h1 : s.node with
      | error x => rw [h1] at hn; cases hn
      | ok x =>
      cases h2 : s'.node with
      | error y => rw [h2] at hm; cases hm
      | ok y =>
        rw [h1] at hn; cases hn
        rw [h2] at hm; cases hm
        obtain ⟨k1, k2, k3⟩ := Sms.node_text (n := x.1) (s' := x.2) h1
        obtain ⟨l1, l2, l3⟩ := Sms.node_text (n := y.1) (s' := y.2) h2
        refine ⟨k2, l2, .ofFull k3 l3 ?_⟩
        have := hr.value.trans hr'.value.symm
        exact k1.trans (this.trans l1.symm)
    | _ e' => rw [e] at e'; cases e'
  | @prefixed i p c t e hs ih =>
    cases hu with
    | @prefixed _ _ _ u e' hs' =>
      rw [e] at e'; cases e'
      rw [Tree.node] at hn hm
      cases h1 : t.node cols mod with
      | error x => rw [h1] at hn; cases hn
      | ok x =>
      cases h2 : u.node cols mod with
      | error y => rw [h2] at hm; cases hm
      | ok y =>
        rw [h1] at hn; cases hn
        rw [h2] at hm; cases hm
        obtain ⟨k1, k2, k3⟩ := ih hs' h1 h2
        refine ⟨(prefixNode_leaves p k1).1, (prefixNode_leaves p k2).1, ?_⟩
        rw [(prefixNode_leaves p k1).2, (prefixNode_leaves p k2).2]
        exact k3.prefixed p true
    | _ e' => rw [e] at e'; cases e'
  | @replace i c cs t e hs ih =>
    cases hu with
    | @replace _ _ _ u e' hs' =>
      rw [e] at e'; cases e'
      rw [Tree.node] at hn hm
      cases h1 : t.node cols mod with
      | error x => rw [h1] at hn; cases hn
      | ok x =>
      cases h2 : u.node cols mod with
      | error y => rw [h2] at hm; cases hm
      | ok y =>
        rw [h1] at hn
        rw [h2] at hm
        change replaceNode x _ = _ at hn
        change replaceNode y _ = _ at hm
        obtain ⟨k1, k2, k3⟩ := ih hs' h1 h2
        obtain ⟨n', en, hn1, hn2⟩ := replaceNode_leaves k1 (sortedCalls cs)
        obtain ⟨m', em, hm1, hm2⟩ := replaceNode_leaves k2 (sortedCalls cs)
        rw [hn] at en; cases en
        rw [hm] at em; cases em
        refine ⟨hn1, hm1, ?_⟩
        rw [hn2, hm2]
        exact k3.replaced _
    | _ e' => rw [e] at e'; cases e'
  | @concat i cs ts e hl hk ih =>
    cases hu with
    | @concat _ _ us e' hl' hk' =>
      rw [e] at e'; cases e'
      rw [Tree.node, Tree.nodes_eq] at hn hm
      cases h1 : allM (Tree.itemNode cols mod) ts with
      | error x => rw [h1] at hn; cases hn
      | ok ns =>
      cases h2 : allM (Tree.itemNode cols mod) us with
      | error y => rw [h2] at hm; cases hm
      | ok ms =>
        rw [h1] at hn; cases hn
        rw [h2] at hm; cases hm
        refine ⟨trivial, trivial, ?_⟩
        rw [mkVec_leaves, mkVec_leaves]
        obtain ⟨a1, a2⟩ := allM_get h1
        obtain ⟨b1, b2⟩ := allM_get h2
        refine sim_flatMap (by omega) ?_
        intro k n m hn hm
        have hlt := (List.getElem?_eq_some_iff.1 hn).1
        obtain ⟨t, et⟩ : ∃ t, ts[k]? = some t := ⟨_, List.getElem?_eq_getElem (by omega)⟩
        obtain ⟨u, eu⟩ : ∃ u, us[k]? = some u := ⟨_, List.getElem?_eq_getElem (by omega)⟩
        obtain ⟨c, ec⟩ : ∃ c, cs[k]? = some c := ⟨_, List.getElem?_eq_getElem (by omega)⟩
        obtain ⟨n', x1, x2⟩ := a2 k _ et
        rw [hn] at x1; cases x1
        obtain ⟨m', y1, y2⟩ := b2 k _ eu
        rw [hm] at y1; cases y1
        have st := hk k _ _ ec et
        have su := hk' k _ _ ec eu
        have ih := ih k _ _ ec et (u := u) (n := n) (m := m) su
        cases st with
        | str s =>
          cases su
          cases x2; cases y2
          exact .refl _
        | _ =>
          cases su <;> exact (ih x2 y2).2.2
    | _ e' => rw [e] at e'; cases e'

end WS
