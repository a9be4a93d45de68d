import Verif.Props.C09Shown
import Verif.Props.C53
/-! # C64 Edited sources whose origins ascend: every attributed character keeps file, line and column -/

namespace WS.Spec

/-- The file, line and column of `a` are not after those of `b`. -/
def Origin.PlaceLe (a b : Origin) : Prop :=
  a.source < b.source ∨ (a.source = b.source ∧ (a.line < b.line ∨ (a.line = b.line ∧ a.col ≤ b.col)))

/-- The same where both are known. -/
def PlaceLe : Option Origin → Option Origin → Prop
  | some a, some b => a.PlaceLe b
  | _, _ => True

instance (a b : Origin) : Decidable (a.PlaceLe b) := by unfold Origin.PlaceLe; infer_instance
instance (a b : Option Origin) : Decidable (PlaceLe a b) := by
  cases a <;> cases b <;> unfold PlaceLe <;> infer_instance

/-- The places characters come from do not go back. -/
def Ascending (m : Marked) : Prop := (m.map Prod.snd).Pairwise PlaceLe

instance (m : Marked) : Decidable (Ascending m) := by unfold Ascending; infer_instance

/-- What the maps of the objects without others say about their characters, one object after the other
in the order in which they stand in `src`; prefixes and replacements are left out. -/
inductive Unedited (ops : List Op) (h : Heap) (module_ : Bool) : Src → Marked → Prop
  | str (s : List Char) : Unedited ops h module_ (.str s) (uniform none s)
  | single {i : Nat} {op : Op} {r : StringWithSourceMap} {h' : Heap} {ps : List Point} {m : Marked} :
      (created ops)[i]? = some op → Spec.Op.Single op →
      apiSourceAndMap h i true module_ none = .ok (r, h') → mapPoints r.map = some ps →
      m.map Prod.fst = r.source → Attributes ps m → Unedited ops h module_ (.ref i) m
  | concat {i : Nat} {ms : List Marked} : (created ops)[i]? = some .newConcat →
      ms.length = (items ops i).length →
      (∀ (j : Nat) (c : Src) (m : Marked), (items ops i)[j]? = some c → ms[j]? = some m →
        Unedited ops h module_ c m) →
      Unedited ops h module_ (.ref i) ms.flatten
  | prefixed {i : Nat} {p : List Char} {c : Src} {m : Marked} :
      (created ops)[i]? = some (.newPrefix p c) → Unedited ops h module_ c m →
      Unedited ops h module_ (.ref i) m
  | replace {i : Nat} {c : Src} {m : Marked} :
      (created ops)[i]? = some (.newReplace c) → Unedited ops h module_ c m →
      Unedited ops h module_ (.ref i) m

end WS.Spec

namespace WS
open Spec

theorem placeLe_self (a : Option Origin) : PlaceLe a a := by
  cases a with
  | none => trivial
  | some a => unfold PlaceLe Origin.PlaceLe; omega

theorem unnamed_of_placeLe {a b : Origin} (h1 : a.PlaceLe b) (h2 : b.PlaceLe a) : a.unnamed = b.unnamed := by
  obtain ⟨s, l, c, n⟩ := a
  obtain ⟨s', l', c', n'⟩ := b
  unfold Origin.PlaceLe at h1 h2
  simp only [Origin.unnamed, Origin.mk.injEq, and_true] at h1 h2 ⊢
  omega

theorem placeLe_of_notAfter {a b : Origin} (h : a.NotAfter b) : a.PlaceLe b := by
  unfold Origin.NotAfter at h
  unfold Origin.PlaceLe
  omega

/-- Only the place counts. -/
theorem placeLe_unnamed {a b c d : Option Origin} (h : PlaceLe a b) (h1 : a.map Origin.unnamed = c.map Origin.unnamed)
    (h2 : b.map Origin.unnamed = d.map Origin.unnamed) : PlaceLe c d := by
  cases a with
  | none => cases c with
    | none => trivial
    | some c => simp at h1
  | some a =>
    cases c with
    | none => trivial
    | some c =>
      cases d with
      | none => trivial
      | some d =>
        cases b with
        | none => simp at h2
        | some b =>
          obtain ⟨s, l, k, n⟩ := a
          obtain ⟨s', l', k', n'⟩ := b
          simp only [Option.map_some, Option.some.injEq, Origin.unnamed] at h1 h2
          obtain ⟨s2, l2, k2, n2⟩ := c
          obtain ⟨s3, l3, k3, n3⟩ := d
          simp only [Origin.mk.injEq, and_true] at h1 h2
          obtain ⟨rfl, rfl, rfl⟩ := h1
          obtain ⟨rfl, rfl, rfl⟩ := h2
          exact h

/-! ## Rendering a tree whose origins ascend -/

/-- The same place, and a name if the other has one. -/
def Origin.Stands (y q : Origin) : Prop := y.unnamed = q.unnamed ∧ (q.name.isSome = true → y.name.isSome = true)

theorem Origin.Stands.rfl' (q : Origin) : Origin.Stands q q := ⟨rfl, id⟩

theorem stands_of_notAfter {y q : Origin} (h1 : y.PlaceLe q) (h2 : q.NotAfter y) : Origin.Stands y q := by
  refine ⟨unnamed_of_placeLe h1 (placeLe_of_notAfter h2), fun h => ?_⟩
  obtain ⟨s, l, c, n⟩ := y
  obtain ⟨s', l', c', n'⟩ := q
  unfold Origin.PlaceLe at h1
  unfold Origin.NotAfter at h2
  cases n' with
  | none => cases h
  | some n' =>
    cases n with
    | some n => rfl
    | none => simp at h1 h2; omega

/-- Characters with the same place: where the left one has a place, the right one has it too, and a name if the left
one has one. -/
def Kept : Marked → Marked → Prop
  | [], [] => True
  | (c, o) :: a, (d, x) :: b => c = d ∧ (∀ q, o = some q → ∃ y, x = some y ∧ Origin.Stands y q) ∧ Kept a b
  | _, _ => False

theorem Kept.append : ∀ {a b c d : Marked}, Kept a b → Kept c d → Kept (a ++ c) (b ++ d)
  | [], [], _, _, _, h => h
  | (_, _) :: _, (_, _) :: _, _, _, h, h' => ⟨h.1, h.2.1, h.2.2.append h'⟩
  | [], _ :: _, _, _, h, _ => h.elim
  | _ :: _, [], _, _, h, _ => h.elim

theorem Kept.get : ∀ {a b : Marked}, Kept a b → ∀ {j : Nat} {c : Char} {q : Origin},
    a[j]? = some (c, some q) → ∃ y, b[j]? = some (c, some y) ∧ Origin.Stands y q
  | [], [], _, _, _, _, e => by cases e
  | (_, _) :: _, (_, _) :: _, h, 0, c, q, e => by
    simp only [List.getElem?_cons_zero, Option.some.injEq, Prod.mk.injEq] at e ⊢
    obtain ⟨y, hy, hu⟩ := h.2.1 q e.2
    exact ⟨y, ⟨by rw [← h.1, e.1], hy⟩, hu⟩
  | (_, _) :: _, (_, _) :: _, h, j + 1, c, q, e => by
    simp only [List.getElem?_cons_succ] at e ⊢
    exact h.2.2.get e
  | [], _ :: _, h, _, _, _, _ => h.elim
  | _ :: _, [], h, _, _, _, _ => h.elim

theorem kept_string (o : Option Origin) : ∀ (s : Str) (first : Option Origin),
    (∀ q, o = some q → ∃ y, first = some y ∧ Origin.Stands y q) →
    Kept (s.map fun x => (x, o)) (showString first o s)
  | [], _, _ => trivial
  | c :: s, first, h => by
    rw [showString]
    refine ⟨rfl, h, kept_string o s _ ?_⟩
    split
    · exact fun q hq => ⟨q, hq, .rfl' q⟩
    · exact h

theorem displayed_kept : ∀ (L : List (Str × Option Origin)) (cur seen : Option Origin)
    (here : List (Option Origin)), (∀ p ∈ here, ∀ l ∈ L, PlaceLe p l.2) →
    (here ≠ [] → cur ∈ here) →
    (here = [] → ∀ q, cur = some q → ∃ y, seen = some y ∧ Origin.Stands y q) →
    L.Pairwise (fun a b => PlaceLe a.2 b.2) → Kept (marked L) (displayed cur seen here L)
  | [], _, _, _, _, _, _, _ => trivial
  | (t, o) :: L, cur, seen, here, h1, h2, h3, hL => by
    rw [List.pairwise_cons] at hL
    obtain ⟨hL1, hL2⟩ := hL
    have hm : marked ((t, o) :: L) = (t.map fun x => (x, o)) ++ marked L := rfl
    have hann1 : ∀ p ∈ (if o = cur then here else o :: here), ∀ l ∈ L, PlaceLe p l.2 := by
      intro p hp l hl
      split at hp
      · exact h1 p hp l (by simp [hl])
      · rcases List.mem_cons.1 hp with rfl | hp
        · exact hL1 l hl
        · exact h1 p hp l (by simp [hl])
    have hann0 : ∀ p ∈ (if o = cur then here else o :: here), PlaceLe p o := by
      intro p hp
      split at hp
      · exact h1 p hp (t, o) (by simp)
      · rcases List.mem_cons.1 hp with rfl | hp
        · exact placeLe_self _
        · exact h1 p hp (t, o) (by simp)
    have hann2 : (if o = cur then here else o :: here) ≠ [] → o ∈ (if o = cur then here else o :: here) := by
      intro hne
      split
      · rename_i e
        rw [if_pos e] at hne
        rw [e]; exact h2 hne
      · simp
    have hann3 : (if o = cur then here else o :: here) = [] → ∀ q, o = some q →
        ∃ y, seen = some y ∧ Origin.Stands y q := by
      intro he q hq
      split at he
      · rename_i e
        exact h3 he q (by rw [← e]; exact hq)
      · cases he
    rw [displayed, hm]
    by_cases ht : t = []
    · subst ht
      rw [if_pos rfl]
      exact displayed_kept L o seen _ hann1 hann2 hann3 hL2
    · rw [if_neg ht]
      generalize hA : (if o = cur then here else o :: here) = ann at *
      have hout : ∀ q, o = some q → ∃ y, outcome seen ann = some y ∧ Origin.Stands y q := by
        intro q hq
        cases ann with
        | nil => exact hann3 rfl q hq
        | cons p ps =>
          rw [outcome]
          have hle := hann0 _ (latest_mem ps p)
          have hge := latest_top ps p o (hann2 (by simp))
          rw [hq] at hle hge
          cases hy : latest p ps with
          | none => rw [hy] at hge; exact hge.elim
          | some y =>
            rw [hy] at hle hge
            exact ⟨y, rfl, stands_of_notAfter hle hge⟩
      refine (kept_string o t _ hout).append
        (displayed_kept L _ _ [] (by simp) (fun h => absurd rfl h) ?_ hL2)
      intro _ q hq
      unfold leftOver
      by_cases hnl : t.getLast? = some '\n'
      · rw [if_pos hnl] at hq; cases hq
      · rw [if_neg hnl] at hq ⊢
        split
        · exact ⟨q, hq, .rfl' q⟩
        · exact hout q hq

/-- Rendering a tree whose origins do not go back: every attributed character is looked up with the right
file, line and column, whatever empty strings the tree has. -/
theorem C64_tree (n : SmNode) (file : Option Int) (root : Option Str) (hl : ∀ l ∈ n.leaves, LineOk l)
    (ha : n.leaves.Pairwise (fun a b => PlaceLe a.2 b.2)) :
    ∃ r ps, n.toStringWithSourceMap file root = .ok r ∧ mapPoints r.map = some ps ∧ r.source = n.text ∧
      ∀ (j : Nat) (c : Char) (o : Origin), n.marks[j]? = some (c, some o) →
        ∃ o', lookup ps (posAfter (n.text.take j)).1 (posAfter (n.text.take j)).2 = some o' ∧
          o'.unnamed = o.unnamed := by
  obtain ⟨r, ps, h1, h2, h3, h4, h5⟩ := C09_shown n file root hl
  refine ⟨r, ps, h1, h2, h3, ?_⟩
  intro j c o hj
  have hk := displayed_kept n.leaves none none [] (by simp) (fun h => absurd rfl h)
    (fun _ q hq => by cases hq) ha
  obtain ⟨y, hy, hu⟩ := hk.get (show (marked n.leaves)[j]? = some (c, some o) from hj)
  have := h5 j c (some y) hy
  rw [List.map_take, h4] at this
  exact ⟨y, this, hu.1⟩

/-! ## Trees of objects -/

/-- The origins of the strings. -/
def origins (L : List (Str × Option Origin)) : List (Option Origin) := L.map Prod.snd

/-- Every known origin of `X` is one of `Y`, or one of `Y` without its name. -/
def PlacesIn (X Y : List (Option Origin)) : Prop :=
  ∀ o, some o ∈ X → ∃ o', some o' ∈ Y ∧ (o = o' ∨ o = o'.unnamed)

theorem PlacesIn.refl (X : List (Option Origin)) : PlacesIn X X := fun o h => ⟨o, h, .inl rfl⟩

theorem PlacesIn.same {o o' : Origin} (h : o = o' ∨ o = o'.unnamed) : o'.unnamed = o.unnamed := by
  rcases h with rfl | rfl <;> rfl

theorem PlacesIn.trans {X Y Z : List (Option Origin)} (h1 : PlacesIn X Y) (h2 : PlacesIn Y Z) : PlacesIn X Z := by
  intro o ho
  obtain ⟨o', h, e⟩ := h1 o ho
  obtain ⟨o2, h', e'⟩ := h2 o' h
  refine ⟨o2, h', ?_⟩
  rcases e with rfl | rfl
  · exact e'
  · rcases e' with rfl | rfl <;> exact .inr rfl

theorem PlacesIn.mono {X Y Z : List (Option Origin)} (h1 : PlacesIn X Y) (h2 : ∀ o ∈ Y, o ∈ Z) : PlacesIn X Z :=
  h1.trans fun o ho => ⟨o, h2 _ ho, .inl rfl⟩

theorem PlacesIn.append {X Y Z : List (Option Origin)} (h1 : PlacesIn X Z) (h2 : PlacesIn Y Z) :
    PlacesIn (X ++ Y) Z := by
  intro o ho
  rcases List.mem_append.1 ho with h | h
  · exact h1 o h
  · exact h2 o h

theorem PlacesIn.le {X Y : List (Option Origin)} (h : PlacesIn X Y) {a : Option Origin}
    (ha : ∀ y ∈ Y, PlaceLe a y) : ∀ x ∈ X, PlaceLe a x := by
  intro x hx
  cases x with
  | none => cases a <;> trivial
  | some x =>
    obtain ⟨y, hy, e⟩ := h x hx
    exact placeLe_unnamed (ha _ hy) rfl (by simp [PlacesIn.same e])

theorem PlacesIn.ge {X Y : List (Option Origin)} (h : PlacesIn X Y) {a : Option Origin}
    (ha : ∀ y ∈ Y, PlaceLe y a) : ∀ x ∈ X, PlaceLe x a := by
  intro x hx
  cases x with
  | none => trivial
  | some x =>
    obtain ⟨y, hy, e⟩ := h x hx
    exact placeLe_unnamed (ha _ hy) (by simp [PlacesIn.same e]) rfl

/-- What stands in a row can be replaced by something with the same places. -/
theorem pairwise_middle {X Y Y' Z : List (Option Origin)} (h : (X ++ (Y ++ Z)).Pairwise PlaceLe)
    (hp : PlacesIn Y' Y) (hY : Y'.Pairwise PlaceLe) : (X ++ (Y' ++ Z)).Pairwise PlaceLe := by
  rw [List.pairwise_append] at h ⊢
  obtain ⟨h1, h2, h3⟩ := h
  rw [List.pairwise_append] at h2 ⊢
  refine ⟨h1, ⟨hY, h2.2.1, ?_⟩, ?_⟩
  · intro a ha b hb
    exact hp.ge (fun y hy => h2.2.2 y hy b hb) a ha
  · intro a ha b hb
    rcases List.mem_append.1 hb with hb | hb
    · exact hp.le (fun y hy => h3 a ha y (by simp [hy])) b hb
    · exact h3 a ha b (by simp [hb])

/-- The mappings of a walk are those of its strings. -/
theorem Core.head_from (c : Core) (o : Option Origin) : ∀ m ∈ (c.head o).mappings.list,
    m ∈ c.mappings.list ∨ m = mapAt m.generated o := by
  intro m hm
  unfold Core.head at hm
  cases o with
  | some o =>
    dsimp only at hm
    split at hm
    · rw [MappingList.add_list] at hm
      rcases List.mem_append.1 hm with h | h
      · exact .inl h
      · rw [List.mem_singleton.1 h]; exact .inr rfl
    · exact .inl hm
  | none =>
    dsimp only at hm
    split at hm
    · dsimp only at hm
      rw [MappingList.add_list] at hm
      rcases List.mem_append.1 hm with h | h
      · exact .inl h
      · rw [List.mem_singleton.1 h]; exact .inr rfl
    · exact .inl hm

theorem Core.chars_from (o : Option Origin) : ∀ (s : Str) (c : Core),
    ∀ m ∈ (Core.chars o c s).mappings.list, m ∈ c.mappings.list ∨ m = mapAt m.generated o
  | [], _, m, hm => .inl hm
  | ch :: s, c, m, hm => by
    rw [Core.chars] at hm
    split at hm
    · dsimp only at hm
      rcases Core.chars_from o s _ m hm with h | h
      · split at h
        · exact .inl h
        · cases o with
          | none => exact .inl h
          | some o =>
            dsimp only at h
            rw [MappingList.add_list] at h
            rcases List.mem_append.1 h with h | h
            · exact .inl h
            · rw [List.mem_singleton.1 h]; exact .inr rfl
      · exact .inr h
    · rcases Core.chars_from o s _ m hm with h | h
      · exact .inl h
      · exact .inr h

theorem Core.walk_from : ∀ (L : List (Str × Option Origin)) (c : Core), ∀ m ∈ (c.walk L).mappings.list,
    m ∈ c.mappings.list ∨ ∃ o ∈ origins L, m = mapAt m.generated o
  | [], _, m, hm => .inl hm
  | (s, o) :: L, c, m, hm => by
    rw [Core.walk] at hm
    rcases Core.walk_from L _ m hm with h | ⟨o', h1, h2⟩
    · rcases Core.chars_from o s _ m h with h | h
      · rcases Core.head_from c o m h with h | h
        · exact .inl h
        · exact .inr ⟨o, by simp [origins], h⟩
      · exact .inr ⟨o, by simp [origins], h⟩
    · exact .inr ⟨o', by rw [origins, List.map_cons]; exact List.mem_cons_of_mem _ h1, h2⟩

/-- A replacement text comes from a place of the strings it stands for. -/
theorem headOrigin_from (L : List (Str × Option Origin)) : PlacesIn [headOrigin L] (origins L) := by
  intro o ho
  have ho : headOrigin L = some o := (List.mem_singleton.1 ho).symm
  unfold headOrigin at ho
  dsimp only at ho
  rcases originalPositionIn_mem (l := (Core.new.walk L).mappings.sort.list) (line := 1) (col := 0) with e | e
  · rw [e] at ho; cases ho
  · have hm := (Core.new.walk L).mappings.sort_perm.mem_iff.1 e
    rcases Core.walk_from L Core.new _ hm with h | ⟨o', h1, h2⟩
    · simp [Core.new, MappingList.new] at h
    · rw [h2] at ho
      cases o' with
      | none => cases ho
      | some o' =>
        refine ⟨o', h1, .inr ?_⟩
        simp only [mapAt, originOf, Option.some.injEq] at ho
        rw [← ho]; rfl

theorem splitLeaves_origins : ∀ (L : List (Str × Option Origin)) (p : Int) (l r : List (Str × Option Origin)),
    splitLeaves L p = .ok (l, r) → ∃ A o B, origins L = A ++ o :: B ∧ origins l = A ++ [o] ∧ origins r = o :: B
  | [], p, l, r, h => by cases h
  | (s, o) :: L, p, l, r, h => by
    rw [splitLeaves] at h
    cases hc : splitChars s p with
    | ok ab =>
      obtain ⟨a, b⟩ := ab
      rw [hc] at h
      cases h
      exact ⟨[], o, origins L, rfl, rfl, rfl⟩
    | error q =>
      rw [hc] at h
      dsimp only at h
      cases hr : splitLeaves L q with
      | error e => rw [hr] at h; cases h
      | ok lr =>
        obtain ⟨l', r'⟩ := lr
        rw [hr] at h
        cases h
        obtain ⟨A, o', B, h1, h2, h3⟩ := splitLeaves_origins L q _ _ hr
        refine ⟨o :: A, o', B, ?_, ?_, h3⟩
        · rw [origins, List.map_cons]; exact congrArg _ h1
        · rw [origins, List.map_cons]; exact congrArg _ h2

theorem pairwise_split {L l r : List (Str × Option Origin)} {p : Int} (h : splitLeaves L p = .ok (l, r))
    {T : List (Option Origin)} (hL : (origins L ++ T).Pairwise PlaceLe) :
    (origins l ++ (origins r ++ T)).Pairwise PlaceLe := by
  obtain ⟨A, o, B, h1, h2, h3⟩ := splitLeaves_origins L p l r h
  rw [h1] at hL
  have e1 : (A ++ o :: B) ++ T = A ++ ([o] ++ (B ++ T)) := by simp
  rw [e1] at hL
  have := pairwise_middle (Y' := [o, o]) hL (fun x hx => ⟨x, by simpa using hx, .inl rfl⟩)
    (by simp [placeLe_self])
  rw [h2, h3]
  simpa using this

theorem places_split {L l r : List (Str × Option Origin)} {p : Int} (h : splitLeaves L p = .ok (l, r)) :
    (∀ o ∈ origins l, o ∈ origins L) ∧ ∀ o ∈ origins r, o ∈ origins L := by
  obtain ⟨A, o, B, h1, h2, h3⟩ := splitLeaves_origins L p l r h
  rw [h1, h2, h3]
  constructor <;> intro x hx <;> simp at hx ⊢ <;> grind

theorem places_replLeaf {o : Option Origin} {X : List (Option Origin)} (h : PlacesIn [o] X) (t : Str) :
    PlacesIn (origins (replLeaf o t)) X := by
  unfold replLeaf
  split
  · intro x hx; simp [origins] at hx
  · exact h

theorem pairwise_replLeaf (o : Option Origin) (t : Str) : (origins (replLeaf o t)).Pairwise PlaceLe := by
  unfold replLeaf
  split
  · exact List.Pairwise.nil
  · simp [origins]

theorem origins_append (A B : List (Str × Option Origin)) : origins (A ++ B) = origins A ++ origins B :=
  List.map_append

/-- `ReplaceSource::node` brings in no new places and keeps their order. -/
theorem leafLoop_places : ∀ (rs : List Repl) (R : List (Str × Option Origin)) (T : List (Option Origin)),
    (∀ r ∈ rs, r.start ≤ r.stop) →
    PlacesIn (origins (leafLoop R rs)) (origins R) ∧
      ((origins R ++ T).Pairwise PlaceLe → (origins (leafLoop R rs) ++ T).Pairwise PlaceLe)
  | [], R, T, _ => ⟨.refl _, fun h => h⟩
  | r :: rs, R, T, hr => by
    have hr0 := hr r (by simp)
    have ih := fun R T => leafLoop_places rs R T (fun x hx => hr x (by simp [hx]))
    rw [leafLoop]
    cases h1 : splitLeaves R r.stop with
    | ok lr =>
      obtain ⟨l1, r1⟩ := lr
      dsimp only
      cases h2 : splitLeaves l1 r.start with
      | ok lr =>
        obtain ⟨l2, r2⟩ := lr
        dsimp only
        have p1 := places_split h1
        have p2 := places_split h2
        constructor
        · rw [origins_append, origins_append]
          refine .append ((ih l2 []).1.mono fun o ho => p1.1 o (p2.1 o ho)) (.append ?_ ?_)
          · exact places_replLeaf ((headOrigin_from r2).mono fun o ho => p1.1 o (p2.2 o ho)) _
          · exact (PlacesIn.refl _).mono p1.2
        · intro hR
          have h3 := pairwise_split h1 hR
          have h4 := pairwise_split h2 h3
          have h5 := pairwise_middle h4 (places_replLeaf (headOrigin_from r2) r.text)
            (pairwise_replLeaf _ _)
          have h6 := (ih l2 _).2 h5
          simpa [origins_append] using h6
      | error q =>
        -- cannot be: the left part is `stop` characters long
        exfalso
        have m1 := splitLeaves_marks R r.stop
        rw [h1] at m1
        have m2 := splitLeaves_marks l1 r.start
        rw [h2] at m2
        obtain ⟨A, o, B, _, hl, _⟩ := splitLeaves_origins R _ _ _ h1
        have hne : l1 ≠ [] := by
          intro e
          rw [e] at hl
          simp [origins] at hl
        have := m2.2.resolve_right hne
        omega
    | error q =>
      dsimp only
      cases h2 : splitLeaves R r.start with
      | ok lr =>
        obtain ⟨l2, r2⟩ := lr
        dsimp only
        have p2 := places_split h2
        constructor
        · rw [origins_append]
          exact .append ((ih l2 []).1.mono p2.1) (places_replLeaf ((headOrigin_from r2).mono p2.2) _)
        · intro hR
          have h4 := pairwise_split h2 hR
          have h5 := pairwise_middle h4 (places_replLeaf (headOrigin_from r2) r.text)
            (pairwise_replLeaf _ _)
          have h6 := (ih l2 _).2 h5
          simpa [origins_append] using h6
      | error q =>
        dsimp only
        constructor
        · rw [origins_append]
          exact .append (ih R []).1 (fun o ho => by simp [origins] at ho)
        · intro hR
          have h5 : (origins R ++ ([none] ++ T)).Pairwise PlaceLe :=
            pairwise_middle (Y := []) (Y' := [none]) (by simpa using hR) (fun o ho => by simp at ho) (by simp)
          have h6 := (ih R _).2 h5
          simpa [origins_append, origins] using h6

theorem prefixLeaves_origins (pre : Str) : ∀ (L : List (Str × Option Origin)) (b : Bool),
    origins (prefixLeaves pre L b) = origins L
  | [], _ => rfl
  | (s, o) :: L, b => by
    rw [prefixLeaves, origins, List.map_cons]
    have := prefixLeaves_origins pre L (endsNl s)
    rw [origins] at this
    rw [this]; rfl

theorem full_sublist : ∀ (L : List (Str × Option Origin)), FullLeaves L →
    (origins L).Sublist ((marked L).map Prod.snd)
  | [], _ => List.Sublist.refl _
  | (s, o) :: L, h => by
    have hm : marked ((s, o) :: L) = (s.map fun x => (x, o)) ++ marked L := rfl
    rw [hm, List.map_append]
    have ih := full_sublist L (fun x hx => h x (by simp [hx]))
    cases s with
    | nil => exact absurd rfl (h ([], o) (by simp))
    | cons c s =>
      show (o :: origins L).Sublist _
      simp only [List.map_cons, List.cons_append]
      refine .cons_cons o ?_
      exact ih.trans (List.sublist_append_right _ _)

/-- The strings of a node compared with what the unedited objects say. -/
structure Tame (m : Marked) (L : List (Str × Option Origin)) : Prop where
  places : PlacesIn (origins L) (m.map Prod.snd)
  keeps : Ascending m → (origins L).Pairwise PlaceLe

theorem Tame.prefixed {k : Marked} {m : SmNode} (h : Tame k m.leaves) (p : Str) (hm : m.IsNode) :
    Tame k (prefixNode p m).leaves := by
  have e2 : origins (prefixNode p m).leaves = origins m.leaves := by
    rw [(prefixNode_leaves p hm).2]
    exact prefixLeaves_origins _ _ _
  exact ⟨e2 ▸ h.places, fun ha => e2 ▸ h.keeps ha⟩

section
variable {ops : List Op} {A : AHeap} {h : Heap} {mod : Bool}

theorem single_tame (S : A.Stable) (H : Abs A h)
    (hl : Heap.All Obj.Lined h) {i : Nat} {op : Op} (ho : (created ops)[i]? = some op)
    (hs : Spec.Op.Single op) {t : Tree} (ht : t.IsSingle) (u : Unfolds A (.ref i) t) {n : SmNode}
    (hn : t.node true mod = .ok n) : ∃ m, Unedited ops h mod (.ref i) m ∧ Tame m n.leaves := by
  obtain ⟨h', e⟩ := (api_node_iff S H i true mod n).2 ⟨t, u, hn⟩
  have hlined := (hNode_lined _ _ _ _ _ _ _ _ hl e).1
  have hfull := single_full ht hn
  obtain ⟨r, ps, h1, h2, h3, _, h5⟩ := C09_attribution_partial n none none (leafOk_of hlined.leaves hfull)
  have hsub := full_sublist n.leaves hfull
  refine ⟨n.marks, .single (r := r) (h' := h') ho hs ?_ h2 ?_ h3, ?_, fun ha => ha.sublist hsub⟩
  · unfold apiSourceAndMap
    rw [if_pos rfl, e]
    dsimp only
    rw [h1]
  · rw [h5]; exact SmNode.marks_text n
  · exact fun o ho => ⟨o, hsub.subset ho, .inl rfl⟩

theorem tame_concat : ∀ {ms : List Marked} {Ls : List (List (Str × Option Origin))}, ms.length = Ls.length →
    (∀ (j : Nat) (m : Marked) (L : List (Str × Option Origin)), ms[j]? = some m → Ls[j]? = some L → Tame m L) →
    Tame ms.flatten Ls.flatten
  | [], [], _, _ => ⟨.refl _, fun _ => List.Pairwise.nil⟩
  | m :: ms, L :: Ls, hl, h => by
    have h0 := h 0 m L rfl rfl
    have ih := tame_concat (ms := ms) (Ls := Ls) (by simpa using hl)
      (fun j m L hm hL => h (j + 1) m L hm hL)
    rw [List.flatten_cons, List.flatten_cons]
    refine ⟨?_, ?_⟩
    · rw [origins_append, List.map_append]
      exact .append (h0.places.mono (by simp_all)) (ih.places.mono (by simp_all))
    · intro ha
      rw [Ascending, List.map_append, List.pairwise_append] at ha
      rw [origins_append, List.pairwise_append]
      refine ⟨h0.keeps ha.1, ih.keeps ha.2.1, ?_⟩
      intro a hL b hb
      exact h0.places.ge (fun y hy => ih.places.le (fun z hz => ha.2.2 y hy z hz) b hb) a hL
  | [], _ :: _, hl, _ => by simp at hl
  | _ :: _, [], hl, _ => by simp at hl

theorem tame_tree (hA : stepAll [] ops = .ok A) (S : A.Stable) (H : Abs A h)
    (hl : Heap.All Obj.Lined h) {src : Src} {t : Tree} (u : Unfolds A src t) :
    (∀ k, Contains h k src → Spec.Parted ops k) → ∀ n, Tree.itemNode true mod t = .ok n →
      ∃ m, Unedited ops h mod src m ∧ Tame m n.leaves := by
  have down : ∀ {i : Nat} {a : AObj} {c : Src}, A[i]? = some a →
      (∀ o, AbsObj a o → c ∈ o.children) → (∀ k, Contains h k (.ref i) → Spec.Parted ops k) →
      ∀ k, Contains h k c → Spec.Parted ops k := by
    intro i a c e hm hn k hc
    obtain ⟨o, ho, hao⟩ := H.getSome e
    exact hn k (.step ho (hm o hao) hc)
  have made : ∀ {i : Nat} {a : AObj}, A[i]? = some a →
      ∃ op, (created ops)[i]? = some op ∧ objOf ops i op = some a := by
    intro i a e
    have D := stepAll_described hA i
    rw [e] at D
    cases hc : (created ops)[i]? with
    | none => rw [hc] at D; cases D
    | some op => rw [hc] at D; exact ⟨op, rfl, D.symm⟩
  induction u with
  | str s =>
    intro _ n hn
    cases hn
    refine ⟨_, .str s, ?_, ?_⟩
    · intro o ho; simp [origins, SmNode.leaves] at ho
    · intro _; simp [origins, SmNode.leaves]
  | raw e =>
    intro _ n hn
    obtain ⟨op, h1, h2⟩ := made e
    cases op <;> simp [objOf] at h2
    exact single_tame S H hl h1 trivial (t := .raw _) trivial (.raw e) hn
  | original e =>
    intro _ n hn
    obtain ⟨op, h1, h2⟩ := made e
    cases op <;> simp [objOf] at h2
    exact single_tame S H hl h1 trivial (t := .original ..) trivial (.original e) hn
  | l2l e =>
    intro _ n hn
    obtain ⟨op, h1, h2⟩ := made e
    cases op <;> simp [objOf] at h2
    exact single_tame S H hl h1 trivial (t := .l2l ..) trivial (.l2l e) hn
  | sms e =>
    intro _ n hn
    obtain ⟨op, h1, h2⟩ := made e
    cases op <;> simp [objOf] at h2
    exact single_tame S H hl h1 trivial (t := .sms _) trivial (.sms e) hn
  | @prefixed i p c t e hu ih =>
    intro hk n hn
    obtain ⟨op, h1, h2⟩ := made e
    cases op <;> simp [objOf] at h2
    obtain ⟨rfl, rfl⟩ := h2
    change Tree.node true mod (.prefixed _ t) = .ok n at hn
    rw [Tree.node] at hn
    cases hm : t.node true mod with
    | error x => rw [hm] at hn; cases hn
    | ok m =>
      rw [hm] at hn; cases hn
      have hit : Tree.itemNode true mod t = .ok m := by
        cases t <;> first | exact hm | cases hm
      obtain ⟨k, h3, h4⟩ := ih (down e (by intro o ho; cases ho; simp [Obj.children]) hk) m hit
      exact ⟨k, .prefixed h1 h3, h4.prefixed _ (Tree.node_isNode _ _ t m hm)⟩
  | @replace i c cs t e hu ih =>
    intro hk n hn
    obtain ⟨op, h1, h2⟩ := made e
    cases op <;> simp [objOf] at h2
    obtain ⟨rfl, rfl⟩ := h2
    obtain ⟨hw, es, he⟩ := hk i .self _ h1
    change Tree.node true mod (.replace t _) = .ok n at hn
    rw [Tree.node] at hn
    cases hm : t.node true mod with
    | error x => rw [hm] at hn; cases hn
    | ok m =>
      rw [hm] at hn
      have hit : Tree.itemNode true mod t = .ok m := by
        cases t <;> first | exact hm | cases hm
      obtain ⟨k, h3, h4⟩ := ih (down e (by intro o ho; cases ho; simp [Obj.children]) hk) m hit
      refine ⟨k, .replace h1 h3, ?_⟩
      change replaceNode m (sortedCalls ((requests ops i).map Request.call)) = .ok n at hn
      obtain ⟨n', k1, _, k3⟩ := replaceNode_leaves (Tree.node_isNode _ _ t m hm)
        (sortedCalls ((requests ops i).map Request.call))
      rw [hn] at k1; cases k1
      have hle : ∀ r ∈ sortedCalls ((requests ops i).map Request.call), r.start ≤ r.stop := by
        intro r hr
        have := List.mem_map_of_mem (f := Repl.edit) hr
        rw [sortedCalls_edits hw he, List.mem_reverse] at this
        exact (arranged_edits hw he).1 _ this
      have hp := leafLoop_places (sortedCalls ((requests ops i).map Request.call)) m.leaves [] hle
      rw [k3]
      exact ⟨hp.1.trans h4.places, fun ha => by simpa using hp.2 (by simpa using h4.keeps ha)⟩
  | @concat i cs ts e hlen hu ih =>
    intro hk n hn
    obtain ⟨op, h1, h2⟩ := made e
    cases op <;> simp [objOf] at h2
    subst h2
    change Tree.node true mod (.concat ts) = .ok n at hn
    rw [Tree.node, Tree.nodes_eq] at hn
    cases hm : allM (Tree.itemNode true mod) ts with
    | error x => rw [hm] at hn; cases hn
    | ok ns =>
      rw [hm] at hn; cases hn
      have key : ∀ (cs : List Src) (ts : List Tree) (ns : List SmNode), ts.length = cs.length →
          allM (Tree.itemNode true mod) ts = .ok ns →
          (∀ (j : Nat) (c : Src) (t : Tree), cs[j]? = some c → ts[j]? = some t →
            ∀ n, Tree.itemNode true mod t = .ok n → ∃ k, Unedited ops h mod c k ∧ Tame k n.leaves) →
          ∃ ks : List Marked, ks.length = cs.length ∧
            (∀ (j : Nat) (c : Src) (k : Marked), cs[j]? = some c → ks[j]? = some k →
              Unedited ops h mod c k) ∧ Tame ks.flatten (ns.flatMap SmNode.leaves) := by
        intro cs
        induction cs with
        | nil =>
          intro ts ns hl hns _
          have : ts = [] := by simpa using hl
          subst this
          cases hns
          exact ⟨[], rfl, fun j c k hc => (by cases hc), .refl _, fun _ => List.Pairwise.nil⟩
        | cons c cs ihc =>
          intro ts ns hl hns hall
          cases ts with
          | nil => simp at hl
          | cons t ts =>
            rw [allM] at hns
            cases ht : Tree.itemNode true mod t with
            | error x => rw [ht] at hns; cases hns
            | ok n =>
              rw [ht] at hns
              cases hr : allM (Tree.itemNode true mod) ts with
              | error x => rw [hr] at hns; cases hns
              | ok ns' =>
                rw [hr] at hns; cases hns
                obtain ⟨k, g1, g2⟩ := hall 0 c t rfl rfl n ht
                obtain ⟨ks, g3, g4, g5⟩ := ihc ts ns' (by simpa using hl) hr
                  (fun j c t hc ht => hall (j + 1) c t hc ht)
                refine ⟨k :: ks, by simp [g3], ?_, ?_⟩
                · intro j c' k' hc hk'
                  cases j with
                  | zero => simp at hc hk'; subst hc hk'; exact g1
                  | succ j => exact g4 j c' k' (by simpa using hc) (by simpa using hk')
                · have := tame_concat (ms := [k, ks.flatten]) (Ls := [n.leaves, ns'.flatMap SmNode.leaves]) rfl
                    (fun j m L hm hL => by
                      match j with
                      | 0 => simp at hm hL; subst hm hL; exact g2
                      | 1 => simp at hm hL; subst hm hL; exact g5
                      | j + 2 => simp at hm)
                  simpa using this
      obtain ⟨ks, g1, g2, g3⟩ := key _ ts ns hlen hm (fun j c t hc ht n hn =>
        ih j c t hc ht (down e (by
          intro o ho; cases ho
          simp only [Obj.children]
          exact List.mem_of_getElem? hc) hk) n hn)
      exact ⟨_, .concat h1 g1 g2, by rw [mkVec_leaves]; exact g3⟩

end

/-! ## The theorem -/

/-- Maps and texts say of every character one thing. -/
theorem attributes_same {ps : List Point} {a b : Marked} (ha : Attributes ps a) (hb : Attributes ps b)
    (h : a.map Prod.fst = b.map Prod.fst) : a = b := by
  have hlen : a.length = b.length := by simpa using congrArg List.length h
  apply List.ext_getElem? 
  intro k
  rcases Nat.lt_or_ge k a.length with hk | hk
  · have hk' : k < b.length := by omega
    have h1 := ha k _ _ (List.getElem?_eq_getElem hk)
    have h2 := hb k _ _ (List.getElem?_eq_getElem hk')
    rw [List.map_take, h, ← List.map_take, h2] at h1
    have h3 : (a.map Prod.fst)[k]? = (b.map Prod.fst)[k]? := by rw [h]
    simp only [List.getElem?_map, List.getElem?_eq_getElem hk, List.getElem?_eq_getElem hk', Option.map_some,
      Option.some.injEq] at h3
    rw [List.getElem?_eq_getElem hk, List.getElem?_eq_getElem hk']
    exact congrArg some (Prod.ext h3 h1.symm)
  · rw [List.getElem?_eq_none hk, List.getElem?_eq_none (by omega)]

theorem Spec.Unedited.unique {ops : List Op} {h : Heap} {mod : Bool} {src : Src} {a b : Marked}
    (ha : Unedited ops h mod src a) : Unedited ops h mod src b → a = b := by
  induction ha generalizing b with
  | str s => intro hb; cases hb; rfl
  | single h1 h2 h3 h4 h5 h6 =>
    intro hb
    cases hb with
    | single g1 g2 g3 g4 g5 g6 =>
      rw [g3] at h3; cases h3
      rw [g4] at h4; cases h4
      exact attributes_same h6 g6 (h5.trans g5.symm)
    | concat g1 => rw [h1] at g1; cases g1; exact h2.elim
    | prefixed g1 => rw [h1] at g1; cases g1; exact h2.elim
    | replace g1 => rw [h1] at g1; cases g1; exact h2.elim
  | @concat i ms h1 h2 h3 ih =>
    intro hb
    cases hb with
    | single g1 g2 => rw [h1] at g1; cases g1; exact g2.elim
    | @concat _ ns g1 g2 g3 =>
      have : ms = ns := by
        apply List.ext_getElem?
        intro j
        rcases Nat.lt_or_ge j ms.length with hj | hj
        · have hj' : j < ns.length := by omega
          have hj2 : j < (items ops i).length := by omega
          rw [List.getElem?_eq_getElem hj, List.getElem?_eq_getElem hj']
          exact congrArg some (ih j _ _ (List.getElem?_eq_getElem hj2) (List.getElem?_eq_getElem hj)
            (g3 j _ _ (List.getElem?_eq_getElem hj2) (List.getElem?_eq_getElem hj')))
        · rw [List.getElem?_eq_none hj, List.getElem?_eq_none (by omega)]
      rw [this]
    | prefixed g1 => rw [h1] at g1; cases g1
    | replace g1 => rw [h1] at g1; cases g1
  | prefixed h1 h2 ih =>
    intro hb
    cases hb with
    | single g1 g2 => rw [h1] at g1; cases g1; exact g2.elim
    | concat g1 => rw [h1] at g1; cases g1
    | prefixed g1 g2 => rw [h1] at g1; cases g1; exact ih g2
    | replace g1 => rw [h1] at g1; cases g1
  | replace h1 h2 ih =>
    intro hb
    cases hb with
    | single g1 g2 => rw [h1] at g1; cases g1; exact g2.elim
    | concat g1 => rw [h1] at g1; cases g1
    | prefixed g1 => rw [h1] at g1; cases g1
    | replace g1 g2 => rw [h1] at g1; cases g1; exact ih g2

/-- C64 for all objects. If, in the objects that wrap no other taken in the order in which they stand, the
places the characters come from do not go back, then every character that comes from one of these objects
and for which that object's own map has a place is looked up, in the map of the whole, with that file, line
and column - however the objects were nested, prefixed and edited. (Compare C53: no condition on the node.
The name, if any, may be that of another mapping of the same place.) -/
theorem C64_ascending (ops : List Op) (h h' : Heap) (i : Nat) (module_ : Bool) (n : SmNode) (u : Marked)
    (hrun : run ops = .ok h) (hst : ∀ op ∈ ops, Spec.Op.StableMap op)
    (hf : ∀ op ∈ ops, Spec.Op.Fits op) (hp : ∀ k, Contains h k (.ref i) → Spec.Parted ops k)
    (hn : apiNode h i true module_ = .ok (n, h')) (hu : Unedited ops h module_ (.ref i) u)
    (ha : Ascending u) :
    ∃ r ps k, apiSourceAndMap h i true module_ none = .ok (r, h') ∧ mapPoints r.map = some ps ∧
      Carries ops h module_ (.ref i) k ∧ k.map Prod.fst = r.source ∧
      ∀ (j : Nat) (c : Char) (o : Origin), k[j]? = some (c, some (some o)) →
        ∃ o', lookup ps (posAfter (r.source.take j)).1 (posAfter (r.source.take j)).2 = some o' ∧
          o'.unnamed = o.unnamed := by
  obtain ⟨A, hA, H⟩ := run_abs hrun
  have hlh := run_lined hf hrun
  have hl := (hNode_lined _ _ _ _ _ _ _ _ hlh hn).1
  obtain ⟨t, ut, ht⟩ := (api_node_iff (stable_of_ops hA hst) H i true module_ n).1 ⟨h', hn⟩
  have hit : Tree.itemNode true module_ t = .ok n := by
    cases t <;> first | exact ht | cases ht
  obtain ⟨m, hm, htame⟩ := tame_tree hA (stable_of_ops hA hst) H hlh ut hp n hit
  obtain ⟨k, h1, h2⟩ := carries_tree hA (stable_of_ops hA hst) H hlh ut hp n hit
  have hpw : n.leaves.Pairwise (fun a b => PlaceLe a.2 b.2) := by
    have := htame.keeps (hm.unique hu ▸ ha)
    rw [origins, List.pairwise_map] at this
    exact this
  obtain ⟨r, ps, h3, h4, h5, h6⟩ := C64_tree n none none hl.leaves hpw
  have hfst : n.marks.map Prod.fst = r.source := by rw [h5]; exact SmNode.marks_text n
  refine ⟨r, ps, k, ?_, h4, h1, h2.fst.trans hfst, ?_⟩
  · unfold apiSourceAndMap
    rw [if_pos rfl, hn]
    dsimp only
    rw [h3]
  · intro j c o hj
    rw [h5]
    exact h6 j c o (h2.get hj)

/-- The marked text the condition speaks of always exists (and there is only one, `Unedited.unique`). -/
theorem C64_unedited (ops : List Op) (h h' : Heap) (i : Nat) (module_ : Bool) (n : SmNode)
    (hrun : run ops = .ok h) (hst : ∀ op ∈ ops, Spec.Op.StableMap op)
    (hf : ∀ op ∈ ops, Spec.Op.Fits op) (hp : ∀ k, Contains h k (.ref i) → Spec.Parted ops k)
    (hn : apiNode h i true module_ = .ok (n, h')) : ∃ u, Unedited ops h module_ (.ref i) u := by
  obtain ⟨A, hA, H⟩ := run_abs hrun
  obtain ⟨t, ut, ht⟩ := (api_node_iff (stable_of_ops hA hst) H i true module_ n).1 ⟨h', hn⟩
  have hit : Tree.itemNode true module_ t = .ok n := by
    cases t <;> first | exact ht | cases ht
  obtain ⟨m, hm, _⟩ := tame_tree hA (stable_of_ops hA hst) H (run_lined hf hrun) ut hp n hit
  exact ⟨m, hm⟩

/-! ## Files in the wrong order -/

/-- A statement of file 6 is deleted, then a file with a smaller number follows. -/
def C64_backwards : List Op :=
  [.newOriginal "ab;cd;".toList 6 7, .newReplace (.ref 0), .replace 1 3 5 [] 0 0,
   .newOriginal "x".toList 5 8, .newConcat, .add 3 (.ref 1), .add 3 (.ref 2)]

/-- If the places go back the claim is false: `x` comes from file 5, but the map gives it the place of the
deleted statement of file 6. -/
theorem C64_not_general :
    (∀ op ∈ C64_backwards, Spec.Op.StableMap op) ∧ (∀ op ∈ C64_backwards, Spec.Op.Fits op) ∧
    (created C64_backwards)[3]? = some .newConcat ∧ (items C64_backwards 3) = [.ref 1, .ref 2] ∧
    ((run C64_backwards).toOption.bind fun h => (apiSourceAndMap h 2 true true none).toOption.bind
      fun r => (mapPoints r.1.map).map fun ps => (r.1.source, lookup ps 1 0)) =
      some ("x".toList, some ⟨5, 1, 0, none⟩) ∧
    ((run C64_backwards).toOption.bind fun h => (apiSourceAndMap h 3 true true none).toOption.bind
      fun r => (mapPoints r.1.map).map fun ps => (r.1.source, lookup ps 1 3)) =
      some ("ab;x".toList, some ⟨6, 1, 3, none⟩) := by
  refine ⟨?_, ?_, by decide +kernel, by decide +kernel, by decide +kernel, by decide +kernel⟩ <;>
  · intro op hop
    simp only [C64_backwards, List.mem_cons, List.not_mem_nil, or_false] at hop
    rcases hop with rfl | rfl | rfl | rfl | rfl | rfl | rfl <;>
      first | trivial | (unfold Spec.Op.Fits; simp [Spec.FewLines]; decide +kernel)

/-! Non-trivial case: the program of `C53_ghost`, to whose node `C53_partial` does not apply. -/

example : ((run C53_ghost).toOption.bind fun h => (apiNode h 2 true true).toOption.map fun n =>
    decide (Overruled none [] n.1.leaves)) = some false := by decide +kernel
example : ∀ k, Spec.Parted C53_ghost k := by
  intro k c hc
  have e : created C53_ghost = [.newOriginal "ab;cd;".toList 5 6, .newReplace (.ref 0), .newConcat] := rfl
  rw [e] at hc
  have : k = 1 := by
    match k, hc with
    | 1, _ => rfl
    | 0, h | 2, h => cases h
    | k + 3, h => cases h
  subst this
  exact ⟨by unfold Request.Whole; decide +kernel, requests C53_ghost 1, .refl _, by decide +kernel, fun _ => rfl⟩

/-- The two statements, then the string. -/
def C64_case : Marked :=
  uniform (some ⟨5, 1, 0, none⟩) "ab;".toList ++ uniform (some ⟨5, 1, 3, none⟩) "cd;".toList ++
    uniform none "x".toList

example : Ascending C64_case := by decide

example (h : Heap) (hr : run C53_ghost = .ok h) : Unedited C53_ghost h true (.ref 2) C64_case := by
  have key : ∀ h, run C53_ghost = .ok h → ∃ r h' ps, apiSourceAndMap h 0 true true none = .ok (r, h') ∧
      mapPoints r.map = some ps ∧ r.source = "ab;cd;".toList ∧
      Attributes ps (uniform (some ⟨5, 1, 0, none⟩) "ab;".toList ++
        uniform (some ⟨5, 1, 3, none⟩) "cd;".toList) := by
    intro h hr
    have e : ((run C53_ghost).toOption.bind fun h => (apiSourceAndMap h 0 true true none).toOption.bind
        fun r => (mapPoints r.1.map).map fun ps => (r.1.source, ps)) =
        some ("ab;cd;".toList, [⟨1, 0, some ⟨5, 1, 0, none⟩⟩, ⟨1, 3, some ⟨5, 1, 3, none⟩⟩]) := by
      decide +kernel
    rw [hr] at e
    simp only [Except.toOption, Option.bind_some] at e
    cases ha : apiSourceAndMap h 0 true true none with
    | error x => rw [ha] at e; cases e
    | ok q =>
      obtain ⟨r, h'⟩ := q
      rw [ha] at e
      simp only [Option.bind_some] at e
      cases hm : mapPoints r.map with
      | none => rw [hm] at e; cases e
      | some ps =>
        rw [hm] at e
        simp only [Option.map_some, Option.some.injEq, Prod.mk.injEq] at e
        refine ⟨r, h', ps, rfl, hm, e.1, ?_⟩
        rw [e.2]
        intro k c o hk
        match k, hk with
        | 0, hk | 1, hk | 2, hk | 3, hk | 4, hk | 5, hk => cases hk; decide
        | k + 6, hk => simp [uniform] at hk
  obtain ⟨r, h', ps, e1, e2, e3, e4⟩ := key h hr
  refine .concat (ms := [uniform (some ⟨5, 1, 0, none⟩) "ab;".toList ++
    uniform (some ⟨5, 1, 3, none⟩) "cd;".toList, uniform none "x".toList]) rfl rfl ?_
  intro j c m hc hm
  match j, hc, hm with
  | 0, hc, hm =>
    cases hc; cases hm
    exact .replace (c := .ref 0) rfl (.single (op := .newOriginal "ab;cd;".toList 5 6) rfl trivial e1 e2 e3.symm e4)
  | 1, hc, hm => cases hc; cases hm; exact .str _
  | j + 2, hc, hm => cases hm

end WS
