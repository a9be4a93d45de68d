import Verif.Props.C22
import Verif.Proofs.ReplaceNode
/-! # Trees with attributed empty strings: which of several mappings at a place wins -/

namespace WS.Spec

/-- The order of maps on origins: by source number, line, column, name (none first). -/
def Origin.NotAfter (a b : Origin) : Prop :=
  a.source < b.source ∨ (a.source = b.source ∧ (a.line < b.line ∨ (a.line = b.line ∧
    (a.col < b.col ∨ (a.col = b.col ∧ match a.name, b.name with
      | none, _ => True
      | some _, none => False
      | some x, some y => x ≤ y)))))

/-- The same with "no origin" before all others. -/
def NotAfter : Option Origin → Option Origin → Prop
  | none, _ => True
  | some _, none => False
  | some a, some b => a.NotAfter b

instance (a b : Origin) : Decidable (a.NotAfter b) := by
  unfold Origin.NotAfter
  have : Decidable (match a.name, b.name with
      | none, _ => True
      | some _, none => False
      | some x, some y => x ≤ y) := by
    cases a.name <;> cases b.name <;> dsimp only <;> infer_instance
  infer_instance

instance (a b : Option Origin) : Decidable (NotAfter a b) := by
  cases a <;> cases b <;> unfold NotAfter <;> infer_instance

/-- Whether every character comes after (in the order of maps) all origins that are announced at its
place. Strings with their origins are read from left to right; a string announces its origin unless it
is the current one, `cur`; `here` are the origins announced since the last character. -/
def Overruled : Option Origin → List (Option Origin) → List (List Char × Option Origin) → Prop
  | _, _, [] => True
  | cur, here, (t, o) :: rest =>
    if t = [] then Overruled o (if o = cur then here else o :: here) rest
    else (∀ p ∈ (if o = cur then here else o :: here), NotAfter p o) ∧
      Overruled (if t.getLast? = some '\n' then none else o) [] rest

instance Overruled.decide : ∀ (cur : Option Origin) (here : List (Option Origin))
    (ls : List (List Char × Option Origin)), Decidable (Overruled cur here ls)
  | _, _, [] => isTrue trivial
  | cur, here, (t, o) :: rest => by
    unfold Overruled
    have := Overruled.decide o (if o = cur then here else o :: here) rest
    have := Overruled.decide (if t.getLast? = some '\n' then none else o) [] rest
    infer_instance

end WS.Spec

namespace WS
open Spec

/-- The mapping that says that `g` comes from `o`. -/
def mapAt (g : Nat × Nat) (o : Option Origin) : Mapping :=
  match o with
  | some o => ⟨g, some o.source, o.name, some (o.line, o.col)⟩
  | none => ⟨g, none, none, none⟩

theorem mapAt_gen (g : Nat × Nat) (o : Option Origin) : (mapAt g o).generated = g := by
  cases o <;> rfl

theorem mapAt_origin (g : Nat × Nat) (o : Option Origin) : (mapAt g o).point = ⟨g.1, g.2, o⟩ := by
  cases o <;> rfl

theorem mapAt_inj {g : Nat × Nat} {a b : Option Origin} (h : mapAt g a = mapAt g b) : a = b := by
  have := congrArg Mapping.point h
  rw [mapAt_origin, mapAt_origin] at this
  injection this

theorem compare_int_le (a b : Int) : (compare a b).isLE = decide (a ≤ b) := by
  rw [Int.compare_eq_ite_le]
  split
  · split <;> simp_all
  · simp_all

theorem mapAt_le (g : Nat × Nat) (a b : Option Origin) :
    Mapping.le (mapAt g a) (mapAt g b) = true ↔ NotAfter a b := by
  have hg : cmpPair g g = .eq := (cmpPair_eq_eq g g).2 rfl
  cases a with
  | none =>
    simp only [NotAfter, iff_true]
    apply Mapping.le_unmapped _ rfl rfl rfl
    rw [mapAt_gen, mapAt_gen]
  | some a =>
    cases b with
    | none =>
      simp [mapAt, Mapping.le, Mapping.cmp, hg, cmpOpt, NotAfter, Ordering.then]
    | some b =>
      obtain ⟨s, l, c, n⟩ := a
      obtain ⟨s', l', c', n'⟩ := b
      simp only [mapAt, Mapping.le, Mapping.cmp, hg, cmpOpt, NotAfter, Origin.NotAfter,
        Ordering.then]
      rcases Int.lt_trichotomy s s' with h | h | h
      · simp [Int.compare_eq_lt.2 h, h]
      · subst h
        have : compare s s = .eq := Int.compare_eq_eq.2 rfl
        simp only [this, cmpPair, Ordering.then]
        rcases Nat.lt_trichotomy l l' with h | h | h
        · simp [Nat.compare_eq_lt.2 h, h]
        · subst h
          have : compare l l = .eq := Nat.compare_eq_eq.2 rfl
          simp only [this]
          rcases Nat.lt_trichotomy c c' with h | h | h
          · simp [Nat.compare_eq_lt.2 h, h]
          · subst h
            have : compare c c = .eq := Nat.compare_eq_eq.2 rfl
            simp only [this]
            cases n <;> cases n' <;> simp [compare_int_le]
          · simp [Nat.compare_eq_gt.2 h, Nat.not_lt.2 (Nat.le_of_lt h), Nat.ne_of_gt h]
        · simp [Nat.compare_eq_gt.2 h, Nat.not_lt.2 (Nat.le_of_lt h), Nat.ne_of_gt h]
      · simp [Int.compare_eq_gt.2 h, Int.not_lt.2 (Int.le_of_lt h), Int.ne_of_gt h]

/-- In groups of mappings of one place before `g` the last is the greatest. -/
def GroupsTopped (L : List Mapping) (g : Nat × Nat) : Prop :=
  ∀ A x B, L = A ++ x :: B → PosLt x.generated g → (∀ b ∈ B, PosLt x.generated b.generated) →
    ∀ a ∈ A, a.generated = x.generated → Mapping.le a x = true

/-- Where the point found stands in the list. -/
theorem pointAt_split {L : List Mapping} {l c : Nat} {q : Point}
    (h : pointAt (L.map Mapping.point) l c = some q) :
    ∃ A x B, L = A ++ x :: B ∧ q = x.point ∧ x.generated.1 = l ∧ x.generated.2 ≤ c ∧
      ∀ b ∈ B, ¬ (b.generated.1 = l ∧ b.generated.2 ≤ c) := by
  induction L with
  | nil => cases h
  | cons m L ih =>
    rw [List.map_cons, pointAt] at h
    split at h
    · rename_i q' hq
      cases h
      obtain ⟨A, x, B, e, r⟩ := ih hq
      exact ⟨m :: A, x, B, by rw [e]; rfl, r⟩
    · rename_i hn
      split at h
      · rename_i hm
        cases h
        refine ⟨[], m, L, rfl, rfl, hm.1, hm.2, ?_⟩
        intro b hb hc
        have : ∀ (L : List Mapping), b ∈ L → pointAt (L.map Mapping.point) l c ≠ none := by
          intro L
          induction L with
          | nil => intro h; cases h
          | cons y L ihL =>
            intro hy hne
            rw [List.map_cons, pointAt] at hne
            rcases List.mem_cons.1 hy with rfl | hy
            · split at hne
              · cases hne
              · rw [if_pos (show b.point.line = l ∧ b.point.col ≤ c from hc)] at hne; cases hne
            · have := ihL hy
              split at hne
              · cases hne
              · rename_i hx; exact this hx
        exact this L hb hn
      · cases h

theorem pointAt_exists {L : List Mapping} {l c : Nat} {b : Mapping} (hb : b ∈ L)
    (hc : b.generated.1 = l ∧ b.generated.2 ≤ c) : ∃ q, pointAt (L.map Mapping.point) l c = some q := by
  induction L with
  | nil => cases hb
  | cons y L ih =>
    rw [List.map_cons, pointAt]
    rcases List.mem_cons.1 hb with rfl | hb
    · split
      · exact ⟨_, rfl⟩
      · rw [if_pos (show b.point.line = l ∧ b.point.col ≤ c from hc)]; exact ⟨_, rfl⟩
    · obtain ⟨q, hq⟩ := ih hb
      rw [hq]
      exact ⟨q, rfl⟩

theorem posLt_or (p q : Nat × Nat) : PosLt p q ∨ p = q ∨ PosLt q p := by
  unfold PosLt
  obtain ⟨a, b⟩ := p
  obtain ⟨c, d⟩ := q
  simp only [Prod.mk.injEq]
  omega

theorem Mapping.le_not_lt {a b : Mapping} (h : Mapping.le a b = true) :
    ¬ PosLt b.generated a.generated := by
  have := Mapping.le_generated h
  unfold PosLt
  omega

theorem Mapping.le_antisymm' {a b : Mapping} (h1 : Mapping.le a b = true) (h2 : Mapping.le b a = true)
    {g : Nat × Nat} {o o' : Option Origin} (ha : a = mapAt g o) (hb : b = mapAt g o') : a = b := by
  subst ha hb
  rw [mapAt_le] at h1 h2
  congr 1
  cases o with
  | none => cases o' with
    | none => rfl
    | some b => cases h2
  | some a => cases o' with
    | none => cases h1
    | some b =>
      obtain ⟨s, l, c, n⟩ := a
      obtain ⟨s', l', c', n'⟩ := b
      simp only [NotAfter, Origin.NotAfter] at h1 h2
      have hs : s = s' := by omega
      have hl : l = l' := by omega
      have hc : c = c' := by omega
      subst hs hl hc
      simp only [Int.lt_irrefl, Nat.lt_irrefl, false_or, true_and] at h1 h2
      cases n <;> cases n' <;> simp_all
      omega

/-- Sorting does not change what a reader finds if the last mapping of every place is the greatest. -/
theorem lookup_sorted {L S : List Mapping} {g : Nat × Nat} {l c : Nat} (hp : S.Perm L)
    (hs : S.Pairwise (fun a b => Mapping.le a b = true))
    (hm : L.Pairwise (fun a b => ¬ PosLt b.generated a.generated))
    (hsh : ∀ m ∈ L, ∃ o, m = mapAt m.generated o) (ht : GroupsTopped L g) (hg : PosLt (l, c) g) :
    lookup (S.map Mapping.point) l c = lookup (L.map Mapping.point) l c := by
  cases e1 : pointAt (L.map Mapping.point) l c with
  | none =>
    cases e2 : pointAt (S.map Mapping.point) l c with
    | none => rw [lookup, lookup, e1, e2]
    | some q =>
      obtain ⟨A, x, B, rfl, _, h1, h2, _⟩ := pointAt_split e2
      obtain ⟨q', e3⟩ := pointAt_exists (hp.mem_iff.1 (by simp : x ∈ A ++ x :: B)) ⟨h1, h2⟩
      rw [e1] at e3; cases e3
  | some q =>
    obtain ⟨A, x, B, e, hq, h1, h2, h3⟩ := pointAt_split e1
    have hx : x ∈ L := by rw [e]; simp
    obtain ⟨q', e2⟩ := pointAt_exists (hp.mem_iff.2 hx) ⟨h1, h2⟩
    obtain ⟨A', x', B', e', hq', h1', h2', h3'⟩ := pointAt_split e2
    have hx' : x' ∈ L := hp.mem_iff.1 (by rw [e']; simp)
    -- the point found in the sorted list is the greatest
    have hxx : Mapping.le x x' = true := by
      have : x ∈ A' ++ x' :: B' := by rw [← e']; exact hp.mem_iff.2 hx
      rw [e', List.pairwise_append, List.pairwise_cons] at hs
      rcases List.mem_append.1 this with ha | hb
      · exact hs.2.2 x ha x' (by simp)
      · rcases List.mem_cons.1 hb with rfl | hb
        · exact Mapping.le_refl _
        · exact absurd ⟨h1, h2⟩ (h3' x hb)
    have hlater : ∀ b ∈ B, PosLt x.generated b.generated := by
      intro b hb
      rw [e, List.pairwise_append, List.pairwise_cons] at hm
      rcases posLt_or x.generated b.generated with h | h | h
      · exact h
      · exact absurd ⟨by rw [← h]; exact h1, by rw [← h]; exact h2⟩ (h3 b hb)
      · exact absurd h (hm.2.1.1 b hb)
    have hpos : x.generated = x'.generated := by
      rcases posLt_or x.generated x'.generated with h | h | h
      · -- then the unsorted list would have found `x'` or a later one
        exfalso
        rw [e] at hx'
        rcases List.mem_append.1 hx' with ha | hb
        · rw [e, List.pairwise_append] at hm
          exact hm.2.2 x' ha x (by simp) h
        · rcases List.mem_cons.1 hb with rfl | hb
          · unfold PosLt at h; omega
          · exact h3 x' hb ⟨h1', h2'⟩
      · exact h
      · exact absurd h (Mapping.le_not_lt hxx)
    have hlt : PosLt x.generated g := by
      unfold PosLt at hg ⊢
      simp only at hg
      omega
    have hx'x : Mapping.le x' x = true := by
      rw [e] at hx'
      rcases List.mem_append.1 hx' with ha | hb
      · exact ht A x B e hlt hlater x' ha hpos.symm
      · rcases List.mem_cons.1 hb with rfl | hb
        · exact Mapping.le_refl _
        · have := hlater x' hb
          rw [hpos] at this
          unfold PosLt at this
          omega
    obtain ⟨o, ho⟩ := hsh x hx
    obtain ⟨o', ho'⟩ := hsh x' (hp.mem_iff.1 (by rw [e']; simp))
    have : x = x' := Mapping.le_antisymm' hxx hx'x ho (by rw [hpos]; exact ho')
    rw [lookup, lookup, e1, e2, hq, hq', this]

/-- The last origin written down is `cur`. -/
def Core.LastIs (c : Core) : Option Origin → Prop
  | some o => c.lastSource = some o.source ∧ c.lastPos = some (o.line, o.col) ∧ c.lastName = o.name
  | none => c.lastSource = none

/-- What the walk over strings keeps: `cur` is the current origin, `here` are the origins recorded for
the current place, `ms` is the marked text so far. Under `G` the last mapping of every place passed is
the greatest. -/
structure CoreInv (G : Prop) (c : Core) (cur : Option Origin) (here : List (Option Origin))
    (ms : Marked) : Prop where
  gen : c.gen = posAfter (ms.map Prod.fst)
  active : c.active = cur.isSome
  last : c.LastIs cur
  bound : ∀ m ∈ c.mappings.list, PosLt m.generated c.gen ∨ m.generated = c.gen
  mono : c.mappings.list.Pairwise (fun a b => ¬ PosLt b.generated a.generated)
  shape : ∀ m ∈ c.mappings.list, ∃ o, m = mapAt m.generated o
  group : ∀ o, o ∈ here ↔ mapAt c.gen o ∈ c.mappings.list
  top : here ≠ [] → ∃ A, c.mappings.list = A ++ [mapAt c.gen cur]
  attr : Attributes (c.mappings.list.map Mapping.point) ms
  sees : lookup (c.mappings.list.map Mapping.point) c.gen.1 c.gen.2 = cur
  topped : G → GroupsTopped c.mappings.list c.gen

theorem CoreInv.new (G : Prop) : CoreInv G Core.new none [] [] where
  gen := rfl
  active := rfl
  last := rfl
  bound := fun m hm => by simp [Core.new, MappingList.new] at hm
  mono := List.Pairwise.nil
  shape := fun m hm => by simp [Core.new, MappingList.new] at hm
  group := fun o => by simp [Core.new, MappingList.new]
  top := fun h => absurd rfl h
  attr := fun k c o hk => by simp at hk
  sees := rfl
  topped := fun _ A x B e => by
    have := congrArg List.length e
    simp [Core.new, MappingList.new] at this

theorem not_posLt_self (p : Nat × Nat) : ¬ PosLt p p := by unfold PosLt; omega

/-- Recording an origin. -/
theorem CoreInv.add {G : Prop} {c : Core} {cur : Option Origin} {here : List (Option Origin)}
    {ms : Marked} (h : CoreInv G c cur here ms) (o : Option Origin) (d : Core)
    (hm : d.mappings = c.mappings.add (mapAt c.gen o)) (hg : d.gen = c.gen)
    (ha : d.active = o.isSome)
    (hl : d.LastIs o) :
    CoreInv G d o (o :: here) ms := by
  have hlist : d.mappings.list = c.mappings.list ++ [mapAt c.gen o] := by
    rw [hm, MappingList.add_list]
  constructor
  · rw [hg]; exact h.gen
  · exact ha
  · exact hl
  · rw [hlist, hg]
    intro m hm
    rcases List.mem_append.1 hm with hm | hm
    · exact h.bound m hm
    · have : m = mapAt c.gen o := by simpa using hm
      rw [this, mapAt_gen]; exact .inr rfl
  · rw [hlist, List.pairwise_append]
    refine ⟨h.mono, by simp, ?_⟩
    intro a ha b hb
    have : b = mapAt c.gen o := by simpa using hb
    rw [this, mapAt_gen]
    intro hlt
    rcases h.bound a ha with h' | h'
    · exact not_posLt_self _ (h'.trans hlt)
    · rw [h'] at hlt; exact not_posLt_self _ hlt
  · rw [hlist]
    intro m hm
    rcases List.mem_append.1 hm with hm | hm
    · exact h.shape m hm
    · have : m = mapAt c.gen o := by simpa using hm
      exact ⟨o, by rw [this, mapAt_gen]⟩
  · intro p
    rw [hlist, hg, List.mem_append, List.mem_singleton, List.mem_cons, ← h.group p]
    constructor
    · rintro (rfl | hp)
      · exact .inr rfl
      · exact .inl hp
    · rintro (hp | hp)
      · exact .inr hp
      · exact .inl (mapAt_inj hp)
  · intro _
    exact ⟨_, by rw [hlist, hg]⟩
  · rw [hlist, List.map_append, List.map_cons, List.map_nil, mapAt_origin]
    apply attributes_later h.attr
    rw [← h.gen]; exact .inl rfl
  · rw [hlist, hg, List.map_append, List.map_cons, List.map_nil, mapAt_origin]
    exact lookup_snoc_here rfl (Nat.le_refl _)
  · intro hG A x B e hx hB a ha hax
    rw [hlist] at e
    rw [hg] at hx
    rcases List.eq_nil_or_concat B with rfl | ⟨B', b, rfl⟩
    · have : x = mapAt c.gen o := by
        have := congrArg List.getLast? e
        simpa using this.symm
      rw [this, mapAt_gen] at hx
      exact absurd hx (not_posLt_self _)
    · have e2 : c.mappings.list = A ++ x :: B' := by
        have e3 : c.mappings.list ++ [mapAt c.gen o] = (A ++ x :: B') ++ [b] := by rw [e]; simp
        exact (List.append_inj' e3 rfl).1
      exact h.topped hG A x B' e2 hx (fun b hb => hB b (by simp [hb])) a ha hax

/-- The beginning of a string. -/
theorem CoreInv.head {G : Prop} {c : Core} {cur : Option Origin} {here : List (Option Origin)}
    {ms : Marked} (h : CoreInv G c cur here ms) (o : Option Origin) :
    CoreInv G (c.head o) o (if o = cur then here else o :: here) ms := by
  cases o with
  | some o =>
    rw [Core.head]
    by_cases ho : some o = cur
    · subst ho
      obtain ⟨h1, h2, h3⟩ := h.last
      have ha : c.active = true := h.active
      rw [if_pos rfl, if_neg (by simp [h1, h2, h3])]
      have : ({ c with lastSource := some o.source, lastPos := some (o.line, o.col), lastName := o.name,
                       active := true } : Core) = c := by
        cases c; simp_all
      rw [this]
      exact h
    · rw [if_neg ho]
      have : c.lastSource ≠ some o.source ∨ c.lastPos ≠ some (o.line, o.col) ∨ c.lastName ≠ o.name := by
        cases cur with
        | none => left; rw [show c.lastSource = none from h.last]; simp
        | some p =>
          obtain ⟨h1, h2, h3⟩ := h.last
          rw [h1, h2, h3]
          obtain ⟨s, l, k, n⟩ := o
          obtain ⟨s', l', k', n'⟩ := p
          simp only [Option.some.injEq, Origin.mk.injEq, not_and] at ho
          by_cases e1 : s' = s
          · by_cases e2 : (l', k') = (l, k)
            · right; right
              simp only [Prod.mk.injEq] at e2
              intro e3
              exact ho e1.symm e2.1.symm e2.2.symm e3.symm
            · right; left; simpa using e2
          · left; simpa using e1
      rw [if_pos this]
      exact h.add (some o) _ rfl rfl rfl ⟨rfl, rfl, rfl⟩
  | none =>
    rw [Core.head]
    cases cur with
    | none =>
      have ha : c.active = false := h.active
      rw [if_pos rfl, ha, if_neg (by simp)]
      exact h
    | some p =>
      have ha : c.active = true := h.active
      rw [if_pos ha, if_neg (by simp)]
      exact h.add none _ rfl rfl rfl rfl

/-- The state after a character with nothing recorded for the new place. -/
theorem CoreInv.step {G : Prop} {c : Core} {o : Option Origin} {here : List (Option Origin)}
    {ms : Marked} (h : CoreInv G c o here ms) (hG : G → ∀ p ∈ here, NotAfter p o) (ch : Char) (d : Core)
    (cur : Option Origin) (hm : d.mappings = c.mappings) (hg : d.gen = advance c.gen ch)
    (ha : d.active = cur.isSome)
    (hl : d.LastIs cur)
    (hsees : lookup (c.mappings.list.map Mapping.point) d.gen.1 d.gen.2 = cur) :
    CoreInv G d cur [] (ms ++ [(ch, o)]) := by
  have hbound : ∀ m ∈ c.mappings.list, PosLt m.generated d.gen := by
    intro m hm
    rw [hg]
    rcases h.bound m hm with h' | h'
    · exact h'.trans (advance_lt _ _)
    · rw [h']; exact advance_lt _ _
  constructor
  · rw [hg, h.gen, List.map_append, List.map_cons, List.map_nil, posAfter_snoc]
  · exact ha
  · exact hl
  · rw [hm]; exact fun m hm => .inl (hbound m hm)
  · rw [hm]; exact h.mono
  · rw [hm]; exact h.shape
  · intro p
    rw [hm]
    constructor
    · intro hp; cases hp
    · intro hp
      have := hbound _ hp
      rw [mapAt_gen] at this
      exact absurd this (not_posLt_self _)
  · intro hn; exact absurd rfl hn
  · rw [hm]
    exact attributes_snoc h.attr (by rw [← h.gen]; exact h.sees)
  · rw [hm]; exact hsees
  · intro g A x B e hx hB a haA hax
    rw [hm] at e
    have hxL : x ∈ c.mappings.list := by rw [e]; simp
    rcases h.bound x hxL with h' | h'
    · exact h.topped g A x B e h' hB a haA hax
    · -- the group of the place just left
      have haL : a ∈ c.mappings.list := by rw [e]; simp [haA]
      obtain ⟨p, hp⟩ := h.shape a haL
      have hp' : p ∈ here := by
        rw [h.group, ← h', ← hax, ← hp]; exact haL
      obtain ⟨A', e'⟩ := h.top (fun hn => by rw [hn] at hp'; cases hp')
      have hBnil : B = [] := by
        rcases List.eq_nil_or_concat B with hB' | ⟨B', b, rfl⟩
        · exact hB'
        · have hb := hB b (by simp)
          rw [h'] at hb
          rcases h.bound b (by rw [e]; simp) with hb' | hb'
          · exact absurd (hb'.trans hb) (not_posLt_self _)
          · rw [hb'] at hb; exact absurd hb (not_posLt_self _)
      subst hBnil
      have hxe : x = mapAt c.gen o := by
        have := congrArg List.getLast? (e.symm.trans e')
        simpa using this
      rw [hp, hax, h', hxe, mapAt_le]
      exact hG g p hp'

/-- The characters of a string that is not empty. -/
theorem CoreInv.chars {G : Prop} (o : Option Origin) : ∀ (s : Str) {c : Core}
    {here : List (Option Origin)} {ms : Marked}, s ≠ [] → CoreInv G c o here ms →
    (G → ∀ p ∈ here, NotAfter p o) →
    CoreInv G (Core.chars o c s) (if s.getLast? = some '\n' then none else o) []
      (ms ++ s.map fun x => (x, o)) := by
  intro s
  induction s with
  | nil => intro _ _ _ h; exact absurd rfl h
  | cons ch rest ih =>
    intro c here ms _ h hG
    rw [Core.chars]
    have happ : ms ++ (ch :: rest).map (fun x => (x, o)) = (ms ++ [(ch, o)]) ++ rest.map (fun x => (x, o)) := by
      simp
    rw [happ]
    by_cases hnl : ch = '\n'
    · rw [if_pos hnl]
      dsimp only
      have hadv : advance c.gen ch = (c.gen.1 + 1, 0) := by rw [advance, if_pos hnl]
      have hnone : lookup (c.mappings.list.map Mapping.point) (c.gen.1 + 1) 0 = none := by
        apply lookup_none
        intro p hp
        obtain ⟨m, hm, rfl⟩ := List.mem_map.1 hp
        simp only [Mapping.point]
        rcases h.bound m hm with hlt | heq
        · unfold PosLt at hlt; omega
        · rw [heq]; omega
      cases rest with
      | nil =>
        subst hnl
        simp only [List.isEmpty_nil, if_true, Core.chars, List.map_nil, List.append_nil]
        exact h.step hG '\n' _ none rfl hadv.symm rfl rfl hnone
      | cons d rest =>
        simp only [List.isEmpty_cons, Bool.false_eq_true, if_false]
        have hgl : (ch :: d :: rest).getLast? = (d :: rest).getLast? := by simp
        rw [hgl]
        cases o with
        | none =>
          dsimp only
          exact ih (by simp) (h.step hG ch _ none rfl hadv.symm h.active h.last hnone)
            (fun _ p hp => by cases hp)
        | some o =>
          dsimp only
          have h0 := h.step hG ch { c with gen := (c.gen.1 + 1, 0), active := false, lastSource := none }
            none rfl hadv.symm rfl rfl hnone
          refine ih (by simp) (h0.add (some o) _ rfl rfl h.active h.last) ?_
          intro _ p hp
          rw [List.mem_singleton] at hp
          subst hp
          exact (mapAt_le (0, 0) _ _).1 (Mapping.le_refl _)
    · rw [if_neg hnl]
      have hadv : advance c.gen ch = (c.gen.1, c.gen.2 + 1) := by rw [advance, if_neg hnl]
      have hsees : lookup (c.mappings.list.map Mapping.point) c.gen.1 (c.gen.2 + 1) = o := by
        rw [← h.sees]
        apply lookup_right
        intro p hp
        obtain ⟨m, hm, rfl⟩ := List.mem_map.1 hp
        simp only [Mapping.point]
        rcases h.bound m hm with hlt | heq
        · unfold PosLt at hlt; omega
        · rw [heq]; exact .inr ⟨rfl, Nat.le_refl _⟩
      have h1 := h.step hG ch { c with gen := (c.gen.1, c.gen.2 + 1) } o rfl hadv.symm h.active h.last hsees
      cases rest with
      | nil =>
        have : ([ch] : Str).getLast? = some ch := rfl
        rw [this, if_neg (by simpa using hnl)]
        simpa [Core.chars] using h1
      | cons d rest =>
        have hgl : (ch :: d :: rest).getLast? = (d :: rest).getLast? := by simp
        rw [hgl]
        exact ih (by simp) h1 (fun _ p hp => by cases hp)

/-- A whole walk. -/
theorem CoreInv.walk {G : Prop} : ∀ (L : List (Str × Option Origin)) {c : Core} {cur : Option Origin}
    {here : List (Option Origin)} {ms : Marked}, CoreInv G c cur here ms → (G → Overruled cur here L) →
    ∃ cur' here', CoreInv G (c.walk L) cur' here' (ms ++ marked L)
  | [], c, cur, here, ms, h, _ => ⟨cur, here, by simpa [Core.walk, marked] using h⟩
  | (s, o) :: L, c, cur, here, ms, h, hG => by
    rw [Core.walk]
    have h1 := h.head o
    by_cases hs : s = []
    · subst hs
      simp only [Overruled, if_true] at hG
      obtain ⟨cur', here', r⟩ := CoreInv.walk L h1 hG
      refine ⟨cur', here', ?_⟩
      simpa [marked, Core.chars] using r
    · simp only [Overruled, if_neg hs] at hG
      have h2 := CoreInv.chars o s hs h1 (fun g => (hG g).1)
      obtain ⟨cur', here', r⟩ := CoreInv.walk L h2 (fun g => (hG g).2)
      refine ⟨cur', here', ?_⟩
      have : marked ((s, o) :: L) = (s.map fun x => (x, o)) ++ marked L := rfl
      rw [this, ← List.append_assoc]
      exact r

/-- Nothing recorded is lost. -/
theorem Core.head_mem (c : Core) (o : Option Origin) {m : Mapping} (h : m ∈ c.mappings.list) :
    m ∈ (c.head o).mappings.list := by
  unfold Core.head
  cases o with
  | some o =>
    dsimp only
    split
    · rw [MappingList.add_list]; simp [h]
    · exact h
  | none =>
    dsimp only
    split
    · dsimp only; rw [MappingList.add_list]; simp [h]
    · exact h

theorem Core.chars_mem (o : Option Origin) : ∀ (s : Str) (c : Core) {m : Mapping}, m ∈ c.mappings.list →
    m ∈ (Core.chars o c s).mappings.list
  | [], c, m, h => h
  | ch :: rest, c, m, h => by
    rw [Core.chars]
    split
    · dsimp only
      apply Core.chars_mem o rest
      split
      · exact h
      · cases o with
        | none => exact h
        | some o => dsimp only; rw [MappingList.add_list]; simp [h]
    · exact Core.chars_mem o rest _ h

theorem Core.walk_mem : ∀ (L : List (Str × Option Origin)) (c : Core) {m : Mapping},
    m ∈ c.mappings.list → m ∈ (c.walk L).mappings.list
  | [], c, m, h => h
  | (s, o) :: L, c, m, h => by
    rw [Core.walk]
    exact Core.walk_mem L _ (Core.chars_mem o s _ (Core.head_mem c o h))

/-- In a sorted list a greater origin of the same place hides a smaller one. -/
theorem lookup_not_before {S : List Mapping} (hs : S.Pairwise (fun a b => Mapping.le a b = true))
    (hsh : ∀ m ∈ S, ∃ o, m = mapAt m.generated o) {g : Nat × Nat} {p : Option Origin}
    (hp : mapAt g p ∈ S) : NotAfter p (lookup (S.map Mapping.point) g.1 g.2) := by
  obtain ⟨q, e⟩ := pointAt_exists (l := g.1) (c := g.2) hp (by rw [mapAt_gen]; exact ⟨rfl, Nat.le_refl _⟩)
  obtain ⟨A, x, B, e', hq, h1, h2, h3⟩ := pointAt_split e
  have hle : Mapping.le (mapAt g p) x = true := by
    rw [e'] at hp
    rw [e', List.pairwise_append, List.pairwise_cons] at hs
    rcases List.mem_append.1 hp with ha | hb
    · exact hs.2.2 _ ha x (by simp)
    · rcases List.mem_cons.1 hb with hx | hb
      · rw [hx]; exact Mapping.le_refl _
      · exact absurd (by rw [mapAt_gen]; exact ⟨rfl, Nat.le_refl _⟩) (h3 _ hb)
  have hgen : x.generated = g := by
    have := Mapping.le_not_lt hle
    rw [mapAt_gen] at this
    unfold PosLt at this
    apply Prod.ext
    · exact h1
    · omega
  obtain ⟨o, ho⟩ := hsh x (by rw [e']; simp)
  rw [hgen] at ho
  rw [ho, mapAt_le] at hle
  rw [lookup, e, hq, ho, mapAt_origin]
  exact hle

/-- If some character does not come after all origins announced at its place, the sorted list gets it
wrong. -/
theorem not_overruled {S : List Mapping} (hs : S.Pairwise (fun a b => Mapping.le a b = true))
    (hsh : ∀ m ∈ S, ∃ o, m = mapAt m.generated o) : ∀ (L : List (Str × Option Origin)) {c : Core}
    {cur : Option Origin} {here : List (Option Origin)} {ms : Marked}, CoreInv False c cur here ms →
    (∀ m ∈ (c.walk L).mappings.list, m ∈ S) → Attributes (S.map Mapping.point) (ms ++ marked L) →
    Overruled cur here L
  | [], _, _, _, _, _, _, _ => trivial
  | (s, o) :: L, c, cur, here, ms, h, hS, ha => by
    rw [Core.walk] at hS
    have h1 := h.head o
    unfold Overruled
    by_cases hs' : s = []
    · subst hs'
      rw [if_pos rfl]
      exact not_overruled hs hsh L h1 hS (by simpa [marked] using ha)
    · rw [if_neg hs']
      have hcons : marked ((s, o) :: L) = (s.map fun x => (x, o)) ++ marked L := rfl
      refine ⟨?_, not_overruled hs hsh L (CoreInv.chars o s hs' h1 (fun f => f.elim)) hS (by
        rw [List.append_assoc, ← hcons]; exact ha)⟩
      intro p hp
      have hm := (h1.group p).1 hp
      have hmS := hS _ (Core.walk_mem L _ (Core.chars_mem o s _ hm))
      have hn := lookup_not_before hs hsh hmS
      cases s with
      | nil => exact absurd rfl hs'
      | cons ch s =>
        have := ha ms.length ch o (by rw [hcons]; simp)
        rw [List.take_left' rfl, ← h1.gen] at this
        rw [this] at hn
        exact hn

end WS
