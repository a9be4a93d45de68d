import Verif.Props.C09Exact
/-! # C09 What a column-level map says of every character, for all trees -/

namespace WS.Spec

/-- The last (in the order of maps) of `p` and the origins of the list. -/
def latest (p : Option Origin) : List (Option Origin) → Option Origin
  | [] => p
  | q :: qs => latest (if NotAfter p q then q else p) qs

/-- What is said of the characters of one string: `first` of those on its first line, `o` of the others. -/
def showString (first o : Option Origin) : List Char → Marked
  | [] => []
  | c :: s => (c, first) :: showString (if c = '\n' then o else first) o s

/-- What would be said of the character after the string if nothing were announced there. -/
def leftOver (first o : Option Origin) (s : List Char) : Option Origin :=
  if s.getLast? = some '\n' then none else if '\n' ∈ s then o else first

/-- What is said of the first character of a string if the origins `ann` are announced there and the
character before it was said to come from `seen`: the last one announced in the order of maps. -/
def outcome (seen : Option Origin) : List (Option Origin) → Option Origin
  | [] => seen
  | p :: ps => latest p ps

/-- What a map says of the characters of strings with origins. A string announces its origin unless it is
the current one, `cur`; `here` are the origins announced since the last character; `seen` is what was said
of that character (of none at the beginning of a line). -/
def displayed : Option Origin → Option Origin → List (Option Origin) →
    List (List Char × Option Origin) → Marked
  | _, _, _, [] => []
  | cur, seen, here, (t, o) :: rest =>
    if t = [] then displayed o seen (if o = cur then here else o :: here) rest
    else
      showString (outcome seen (if o = cur then here else o :: here)) o t ++
        displayed (if t.getLast? = some '\n' then none else o)
          (leftOver (outcome seen (if o = cur then here else o :: here)) o t) [] rest

end WS.Spec

namespace WS
open Spec

theorem notAfter_trans {a b c : Option Origin} (h1 : NotAfter a b) (h2 : NotAfter b c) : NotAfter a c :=
  (mapAt_le (0, 0) a c).1 (Mapping.le_trans _ _ _ ((mapAt_le (0, 0) a b).2 h1) ((mapAt_le (0, 0) b c).2 h2))

theorem notAfter_total (a b : Option Origin) : NotAfter a b ∨ NotAfter b a := by
  rcases Mapping.le_total (mapAt (0, 0) a) (mapAt (0, 0) b) with h | h
  · exact .inl ((mapAt_le _ _ _).1 h)
  · exact .inr ((mapAt_le _ _ _).1 h)

theorem notAfter_antisymm {a b : Option Origin} (h1 : NotAfter a b) (h2 : NotAfter b a) : a = b :=
  mapAt_inj (Mapping.le_antisymm' ((mapAt_le (0, 0) a b).2 h1) ((mapAt_le (0, 0) b a).2 h2) rfl rfl)

theorem latest_mem : ∀ (ps : List (Option Origin)) (p : Option Origin), latest p ps ∈ p :: ps
  | [], p => by simp [latest]
  | q :: qs, p => by
    rw [latest]
    have := latest_mem qs (if NotAfter p q then q else p)
    rcases List.mem_cons.1 this with h | h
    · rw [h]; split <;> simp
    · simp [h]

theorem latest_top : ∀ (ps : List (Option Origin)) (p : Option Origin), ∀ x ∈ p :: ps, NotAfter x (latest p ps)
  | [], p, x, hx => by
    have : x = p := by simpa using hx
    subst this; exact notAfter_self _
  | q :: qs, p, x, hx => by
    rw [latest]
    have ih := latest_top qs (if NotAfter p q then q else p)
    have h0 := ih _ (List.mem_cons_self ..)
    rcases List.mem_cons.1 hx with rfl | hx
    · refine notAfter_trans ?_ h0
      split
      · assumption
      · exact notAfter_self _
    · rcases List.mem_cons.1 hx with rfl | hx
      · refine notAfter_trans ?_ h0
        split
        · exact notAfter_self _
        · rename_i hn
          exact (notAfter_total p x).resolve_left hn
      · exact ih x (by simp [hx])

theorem showString_text (o : Option Origin) : ∀ (s : Str) (first : Option Origin),
    (showString first o s).map Prod.fst = s
  | [], _ => rfl
  | c :: s, first => by rw [showString, List.map_cons, showString_text o s]

theorem displayed_text : ∀ (L : List (Str × Option Origin)) (cur seen : Option Origin)
    (here : List (Option Origin)), (displayed cur seen here L).map Prod.fst = (marked L).map Prod.fst
  | [], _, _, _ => rfl
  | (t, o) :: L, cur, seen, here => by
    have hm : marked ((t, o) :: L) = (t.map fun x => (x, o)) ++ marked L := rfl
    have ht : (t.map fun x => (x, o)).map Prod.fst = t := by rw [List.map_map]; simp [Function.comp_def]
    rw [displayed, hm, List.map_append, ht]
    split
    · rename_i h; subst h; rw [displayed_text L]; rfl
    · rw [List.map_append, showString_text, displayed_text L]

/-- What is recorded later is recorded for this place or a later one. -/
theorem Core.head_later (c : Core) (o : Option Origin) : ∀ m ∈ (c.head o).mappings.list,
    m ∈ c.mappings.list ∨ m.generated = c.gen := by
  intro m hm
  unfold Core.head at hm
  cases o with
  | some o =>
    dsimp only at hm
    split at hm
    · rw [MappingList.add_list] at hm
      rcases List.mem_append.1 hm with h | h
      · exact .inl h
      · rw [List.mem_singleton.1 h]; exact .inr rfl
    · exact .inl hm
  | none =>
    dsimp only at hm
    split at hm
    · dsimp only at hm
      rw [MappingList.add_list] at hm
      rcases List.mem_append.1 hm with h | h
      · exact .inl h
      · rw [List.mem_singleton.1 h]; exact .inr rfl
    · exact .inl hm

theorem Core.head_gen (c : Core) (o : Option Origin) : (c.head o).gen = c.gen := by
  unfold Core.head
  cases o with
  | some o => rfl
  | none => dsimp only; split <;> rfl

theorem Core.chars_later (o : Option Origin) : ∀ (s : Str) (c : Core),
    ∀ m ∈ (Core.chars o c s).mappings.list, m ∈ c.mappings.list ∨ PosLt c.gen m.generated
  | [], _, m, hm => .inl hm
  | ch :: s, c, m, hm => by
    rw [Core.chars] at hm
    split at hm
    · dsimp only at hm
      have hlt : PosLt c.gen (c.gen.1 + 1, 0) := by unfold PosLt; simp
      rcases Core.chars_later o s _ m hm with h | h
      · split at h
        · exact .inl h
        · cases o with
          | none => exact .inl h
          | some o =>
            dsimp only at h
            rw [MappingList.add_list] at h
            rcases List.mem_append.1 h with h | h
            · exact .inl h
            · rw [List.mem_singleton.1 h]; exact .inr hlt
      · right
        refine hlt.trans ?_
        split at h
        · exact h
        · cases o <;> exact h
    · have hlt : PosLt c.gen (c.gen.1, c.gen.2 + 1) := by unfold PosLt; simp
      rcases Core.chars_later o s _ m hm with h | h
      · exact .inl h
      · exact .inr (hlt.trans h)

theorem Core.chars_gen (o : Option Origin) : ∀ (s : Str) (c : Core), (Core.chars o c s).gen = posFrom c.gen s
  | [], _ => rfl
  | ch :: s, c => by
    have hp : posFrom c.gen (ch :: s) = posFrom (advance c.gen ch) s := rfl
    rw [Core.chars, hp]
    split
    · rename_i h
      dsimp only
      rw [Core.chars_gen o s]
      congr 1
      rw [advance, if_pos h]
      split
      · rfl
      · cases o <;> rfl
    · rename_i h
      rw [Core.chars_gen o s, advance, if_neg h]

theorem Core.walk_later : ∀ (L : List (Str × Option Origin)) (c : Core), ∀ m ∈ (c.walk L).mappings.list,
    m ∈ c.mappings.list ∨ ¬ PosLt m.generated c.gen
  | [], _, m, hm => .inl hm
  | (s, o) :: L, c, m, hm => by
    rw [Core.walk] at hm
    have key : ∀ m : Mapping, PosLt c.gen m.generated → ¬ PosLt m.generated c.gen :=
      fun m h h' => not_posLt_self _ (h.trans h')
    rcases Core.walk_later L _ m hm with h | h
    · rcases Core.chars_later o s _ m h with h | h
      · rcases Core.head_later c o m h with h | h
        · exact .inl h
        · right; rw [h]; exact not_posLt_self _
      · rw [Core.head_gen] at h
        exact .inr (key m h)
    · right
      rw [Core.chars_gen, Core.head_gen] at h
      by_cases hs : s = []
      · subst hs; exact h
      · intro hlt
        exact h (hlt.trans (posFrom_lt _ hs))

/-- Nothing recorded for the next column: a reader finds there what it finds here. -/
theorem lookup_next {S : List Mapping} {l c : Nat} (h : ∀ m ∈ S, m.generated ≠ (l, c + 1)) :
    lookup (S.map Mapping.point) l (c + 1) = lookup (S.map Mapping.point) l c := by
  have : pointAt (S.map Mapping.point) l (c + 1) = pointAt (S.map Mapping.point) l c := by
    induction S with
    | nil => rfl
    | cons m S ih =>
      rw [List.map_cons, pointAt, pointAt, ih fun x hx => h x (by simp [hx])]
      have hm := h m (by simp)
      have : (m.point.line = l ∧ m.point.col ≤ c + 1) ↔ (m.point.line = l ∧ m.point.col ≤ c) := by
        have e : m.generated = (m.point.line, m.point.col) := rfl
        rw [e] at hm
        constructor
        · rintro ⟨h1, h2⟩
          refine ⟨h1, ?_⟩
          rcases Nat.lt_or_ge c m.point.col with h3 | h3
          · exact absurd (by rw [h1, show m.point.col = c + 1 by omega]) hm
          · exact h3
        · rintro ⟨h1, h2⟩; exact ⟨h1, by omega⟩
      simp only [this]
  rw [lookup, lookup, this]

/-- Nothing recorded for the beginning of a line: a reader finds nothing there. -/
theorem lookup_bol {S : List Mapping} {l : Nat} (h : ∀ m ∈ S, m.generated ≠ (l, 0)) :
    lookup (S.map Mapping.point) l 0 = none := by
  cases e : pointAt (S.map Mapping.point) l 0 with
  | none => rw [lookup, e]; rfl
  | some q =>
    obtain ⟨A, x, B, e', _, h1, h2, _⟩ := pointAt_split e
    exact absurd (Prod.ext h1 (by omega)) (h x (by rw [e']; simp))

/-- In a sorted list a reader finds the last origin (in the order of maps) of those recorded for the
place. -/
theorem lookup_outcome {S : List Mapping} (hs : S.Pairwise (fun a b => Mapping.le a b = true))
    (hsh : ∀ m ∈ S, ∃ o, m = mapAt m.generated o) {g : Nat × Nat} {ann : List (Option Origin)}
    {seen : Option Origin} (hann : ∀ p, p ∈ ann ↔ mapAt g p ∈ S)
    (hseen : (∀ m ∈ S, m.generated ≠ g) → lookup (S.map Mapping.point) g.1 g.2 = seen) :
    lookup (S.map Mapping.point) g.1 g.2 = outcome seen ann := by
  cases ann with
  | nil =>
    refine hseen fun m hm hg => ?_
    obtain ⟨o, ho⟩ := hsh m hm
    rw [hg] at ho
    rw [ho] at hm
    cases (hann o).2 hm
  | cons p ps =>
    rw [outcome]
    have h1 := lookup_not_before hs hsh ((hann _).1 (latest_mem ps p))
    refine notAfter_antisymm ?_ h1
    -- what is found is one of those recorded
    apply latest_top
    rw [hann]
    have hp := (hann p).1 (by simp)
    obtain ⟨q, e⟩ := pointAt_exists (l := g.1) (c := g.2) hp (by rw [mapAt_gen]; exact ⟨rfl, Nat.le_refl _⟩)
    obtain ⟨A, x, B, e', hq, h1, h2, h3⟩ := pointAt_split e
    have hle : Mapping.le (mapAt g p) x = true := by
      rw [e'] at hp
      rw [e', List.pairwise_append, List.pairwise_cons] at hs
      rcases List.mem_append.1 hp with ha | hb
      · exact hs.2.2 _ ha x (by simp)
      · rcases List.mem_cons.1 hb with hx | hb
        · rw [hx]; exact Mapping.le_refl _
        · exact absurd (by rw [mapAt_gen]; exact ⟨rfl, Nat.le_refl _⟩) (h3 _ hb)
    have hgen : x.generated = g := by
      have := Mapping.le_not_lt hle
      rw [mapAt_gen] at this
      unfold PosLt at this
      apply Prod.ext
      · exact h1
      · omega
    have hx : x ∈ S := by rw [e']; simp
    obtain ⟨o, ho⟩ := hsh x hx
    rw [hgen] at ho
    rw [lookup, e, hq, ho, mapAt_origin]
    show mapAt g o ∈ S
    rw [← ho]; exact hx

/-- The characters of a string: what is said of them, and what is left over. -/
theorem chars_displayed {S : List Mapping} (hsh : ∀ m ∈ S, ∃ o, m = mapAt m.generated o)
    (o : Option Origin) (L : List (Str × Option Origin)) :
    ∀ (s : Str) {c : Core} {here : List (Option Origin)} {ms ds : Marked} {first : Option Origin},
    s ≠ [] → CoreInv False c o here ms → (∀ m, m ∈ S ↔ m ∈ ((Core.chars o c s).walk L).mappings.list) →
    ds.map Prod.fst = ms.map Prod.fst → Attributes (S.map Mapping.point) ds →
    lookup (S.map Mapping.point) c.gen.1 c.gen.2 = first →
    Attributes (S.map Mapping.point) (ds ++ showString first o s) ∧
      ((∀ m ∈ S, m.generated ≠ (Core.chars o c s).gen) →
        lookup (S.map Mapping.point) (Core.chars o c s).gen.1 (Core.chars o c s).gen.2 = leftOver first o s)
  | [], _, _, _, _, _, h, _, _, _, _, _ => absurd rfl h
  | ch :: rest, c, here, ms, ds, first, _, h, hS, ht, ha, hl => by
    have hstep := attributes_snoc (c := ch) (o := first) ha (by rw [ht, ← h.gen]; exact hl)
    have hsplit : ds ++ showString first o (ch :: rest) =
        (ds ++ [(ch, first)]) ++ showString (if ch = '\n' then o else first) o rest := by
      rw [showString]; simp
    have hgen := Core.chars_gen o (ch :: rest) c
    have hadv : posFrom c.gen (ch :: rest) = posFrom (advance c.gen ch) rest := rfl
    rw [hsplit]
    cases rest with
    | nil =>
      rw [showString, List.append_nil]
      refine ⟨hstep, ?_⟩
      rw [hgen, hadv]
      show (∀ m ∈ S, m.generated ≠ advance c.gen ch) →
        lookup (S.map Mapping.point) (advance c.gen ch).1 (advance c.gen ch).2 = _
      intro hno
      by_cases hnl : ch = '\n'
      · rw [advance, if_pos hnl] at hno ⊢
        rw [lookup_bol hno, leftOver, if_pos (by rw [hnl]; rfl)]
      · rw [advance, if_neg hnl] at hno ⊢
        rw [lookup_next hno, leftOver, if_neg (by simpa using hnl), if_neg (by simpa using fun h => hnl h.symm)]
        exact hl
    | cons d rest =>
      -- the state after the character
      have hlater : ∀ m ∈ S, PosLt (advance c.gen ch) m.generated ∨
          m ∈ c.mappings.list ∨ (m.generated = advance c.gen ch ∧ ch = '\n' ∧ ∃ p, o = some p ∧
            m = mapAt (advance c.gen ch) o) := by
        intro m hm
        have hend : PosLt (advance c.gen ch) (posFrom c.gen (ch :: d :: rest)) :=
          posFrom_lt _ (by simp)
        rcases Core.walk_later L _ m ((hS m).1 hm) with h' | h'
        · rw [Core.chars] at h'
          by_cases hnl : ch = '\n'
          · rw [if_pos hnl] at h'
            dsimp only at h'
            simp only [List.isEmpty_cons, Bool.false_eq_true, if_false] at h'
            rw [advance, if_pos hnl]
            cases o with
            | none =>
              dsimp only at h'
              rcases Core.chars_later none _ _ m h' with h' | h'
              · exact .inr (.inl h')
              · exact .inl h'
            | some o =>
              dsimp only at h'
              rcases Core.chars_later (some o) _ _ m h' with h' | h'
              · dsimp only at h'
                rw [MappingList.add_list] at h'
                rcases List.mem_append.1 h' with h' | h'
                · exact .inr (.inl h')
                · rw [List.mem_singleton.1 h']
                  exact .inr (.inr ⟨rfl, hnl, o, rfl, rfl⟩)
              · exact .inl h'
          · rw [if_neg hnl] at h'
            rw [advance, if_neg hnl]
            rcases Core.chars_later o _ _ m h' with h' | h'
            · exact .inr (.inl h')
            · exact .inl h'
        · left
          rw [Core.chars_gen] at h'
          rcases posLt_or (advance c.gen ch) m.generated with h2 | h2 | h2
          · exact h2
          · rw [← h2] at h'; exact absurd hend h'
          · exact absurd (h2.trans hend) h'
      have hold : ∀ m ∈ c.mappings.list, PosLt m.generated (advance c.gen ch) := by
        intro m hm
        rcases h.bound m hm with h' | h'
        · exact h'.trans (advance_lt _ _)
        · rw [h']; exact advance_lt _ _
      have hleft : leftOver first o (ch :: d :: rest) =
          leftOver (if ch = '\n' then o else first) o (d :: rest) := by
        unfold leftOver
        have e1 : (ch :: d :: rest).getLast? = (d :: rest).getLast? := by simp
        rw [e1]
        by_cases hnl : ch = '\n'
        · subst hnl
          simp
        · rw [if_neg hnl]
          have : ('\n' ∈ ch :: d :: rest) ↔ '\n' ∈ d :: rest := by
            simp [show ¬ '\n' = ch from fun h => hnl h.symm]
          simp only [this]
      rw [hleft]
      by_cases hnl : ch = '\n'
      · have hadv' : advance c.gen ch = (c.gen.1 + 1, 0) := by rw [advance, if_pos hnl]
        have hnone : lookup (c.mappings.list.map Mapping.point) (c.gen.1 + 1) 0 = none := by
          apply lookup_none
          intro p hp
          obtain ⟨m, hm, rfl⟩ := List.mem_map.1 hp
          simp only [Mapping.point]
          rcases h.bound m hm with hlt | heq
          · unfold PosLt at hlt; omega
          · rw [heq]; omega
        rw [if_pos hnl]
        rw [Core.chars, if_pos hnl] at hS ⊢
        dsimp only at hS ⊢
        simp only [List.isEmpty_cons, Bool.false_eq_true, if_false] at hS ⊢
        cases o with
        | none =>
          dsimp only at hS ⊢
          have h2 := h.step (fun f => f.elim) ch { c with gen := (c.gen.1 + 1, 0) } none rfl hadv'.symm h.active
            h.last hnone
          refine chars_displayed hsh none L (d :: rest) (by simp) h2 hS (by simp [ht]) hstep ?_
          apply lookup_bol
          intro m hm he
          rcases hlater m hm with h' | h' | ⟨_, _, p, hp, _⟩
          · rw [he, hadv'] at h'; exact not_posLt_self _ h'
          · have := hold m h'; rw [he, hadv'] at this; exact not_posLt_self _ this
          · cases hp
        | some o =>
          dsimp only at hS ⊢
          have h0 := h.step (fun f => f.elim) ch
            { c with gen := (c.gen.1 + 1, 0), active := false, lastSource := none } none rfl hadv'.symm rfl rfl
            hnone
          have h2 := h0.add (some o)
            { c with gen := (c.gen.1 + 1, 0), mappings := (c.mappings.add
                ⟨(c.gen.1 + 1, 0), some o.source, o.name, some (o.line, o.col)⟩) } rfl rfl h.active h.last
          refine chars_displayed hsh (some o) L (d :: rest) (by simp) h2 hS (by simp [ht]) hstep ?_
          -- the only origin recorded for the beginning of the line is that of the string
          have hin : mapAt (c.gen.1 + 1, 0) (some o) ∈ S := by
            rw [hS]
            apply Core.walk_mem
            apply Core.chars_mem
            dsimp only
            rw [MappingList.add_list]
            simp [mapAt]
          obtain ⟨q, e⟩ := pointAt_exists (l := c.gen.1 + 1) (c := 0) hin
            (by rw [mapAt_gen]; exact ⟨rfl, Nat.le_refl _⟩)
          obtain ⟨A, x, B, e', hq, h1, h2', h3⟩ := pointAt_split e
          have hx : x ∈ S := by rw [e']; simp
          have hxg : x.generated = (c.gen.1 + 1, 0) := Prod.ext h1 (by omega)
          rw [lookup, e, hq]
          rcases hlater x hx with h' | h' | ⟨_, _, p, hp, hxe⟩
          · rw [hxg, hadv'] at h'; exact absurd h' (not_posLt_self _)
          · have := hold x h'; rw [hxg, hadv'] at this; exact absurd this (not_posLt_self _)
          · rw [hxe, mapAt_origin]; rfl
      · have hadv' : advance c.gen ch = (c.gen.1, c.gen.2 + 1) := by rw [advance, if_neg hnl]
        have hsees : lookup (c.mappings.list.map Mapping.point) c.gen.1 (c.gen.2 + 1) = o := by
          rw [← h.sees]
          apply lookup_right
          intro p hp
          obtain ⟨m, hm, rfl⟩ := List.mem_map.1 hp
          simp only [Mapping.point]
          rcases h.bound m hm with hlt | heq
          · unfold PosLt at hlt; omega
          · rw [heq]; exact .inr ⟨rfl, Nat.le_refl _⟩
        rw [if_neg hnl]
        rw [Core.chars, if_neg hnl] at hS ⊢
        have h2 := h.step (fun f => f.elim) ch { c with gen := (c.gen.1, c.gen.2 + 1) } o rfl hadv'.symm h.active
          h.last hsees
        refine chars_displayed hsh o L (d :: rest) (by simp) h2 hS (by simp [ht]) hstep ?_
        show lookup (S.map Mapping.point) c.gen.1 (c.gen.2 + 1) = first
        rw [lookup_next, hl]
        intro m hm he
        rcases hlater m hm with h' | h' | ⟨_, h', _⟩
        · rw [he, hadv'] at h'; exact not_posLt_self _ h'
        · have := hold m h'; rw [he, hadv'] at this; exact not_posLt_self _ this
        · exact hnl h'

/-- A whole walk. -/
theorem walk_displayed {S : List Mapping} (hs : S.Pairwise (fun a b => Mapping.le a b = true))
    (hsh : ∀ m ∈ S, ∃ o, m = mapAt m.generated o) : ∀ (L : List (Str × Option Origin)) {c : Core}
    {cur seen : Option Origin} {here : List (Option Origin)} {ms ds : Marked}, CoreInv False c cur here ms →
    (∀ m, m ∈ S ↔ m ∈ (c.walk L).mappings.list) → ds.map Prod.fst = ms.map Prod.fst →
    Attributes (S.map Mapping.point) ds →
    ((∀ m ∈ S, m.generated ≠ c.gen) → lookup (S.map Mapping.point) c.gen.1 c.gen.2 = seen) →
    Attributes (S.map Mapping.point) (ds ++ displayed cur seen here L)
  | [], _, _, _, _, _, _, _, _, _, ha, _ => by rw [displayed, List.append_nil]; exact ha
  | (s, o) :: L, c, cur, seen, here, ms, ds, h, hS, ht, ha, hseen => by
    rw [Core.walk] at hS
    have h1 := h.head o
    have hseen1 : (∀ m ∈ S, m.generated ≠ (c.head o).gen) →
        lookup (S.map Mapping.point) (c.head o).gen.1 (c.head o).gen.2 = seen := by
      rw [Core.head_gen]; exact hseen
    rw [displayed]
    by_cases hs' : s = []
    · subst hs'
      rw [if_pos rfl]
      exact walk_displayed hs hsh L h1 hS ht ha hseen1
    · rw [if_neg hs']
      have hann : ∀ p, p ∈ (if o = cur then here else o :: here) ↔ mapAt (c.head o).gen p ∈ S := by
        intro p
        rw [h1.group, hS]
        constructor
        · intro hm
          exact Core.walk_mem L _ (Core.chars_mem o s _ hm)
        · intro hm
          rcases Core.walk_later L _ _ hm with h' | h'
          · rcases Core.chars_later o s _ _ h' with h' | h'
            · exact h'
            · rw [mapAt_gen] at h'; exact absurd h' (not_posLt_self _)
          · rw [mapAt_gen, Core.chars_gen] at h'
            exact absurd (posFrom_lt _ hs') h'
      have hl := lookup_outcome hs hsh hann hseen1
      obtain ⟨ha2, hend⟩ := chars_displayed hsh o L s hs' h1 hS ht ha hl
      rw [← List.append_assoc]
      refine walk_displayed hs hsh L (CoreInv.chars o s hs' h1 (fun f => f.elim)) hS ?_ ha2 hend
      rw [List.map_append, List.map_append, showString_text, ht]
      simp [Function.comp_def]

/-- C09 for all trees with original lines from 1 on: the map can be written, and of every character it says
what `displayed` says. -/
theorem C09_shown (n : SmNode) (file : Option Int) (root : Option Str) (hl : ∀ l ∈ n.leaves, LineOk l) :
    ∃ r ps, n.toStringWithSourceMap file root = .ok r ∧ mapPoints r.map = some ps ∧ r.source = n.text ∧
      (displayed none none [] n.leaves).map Prod.fst = n.text ∧
      Attributes ps (displayed none none [] n.leaves) := by
  have h := SmNode.walk_ok n (c := WalkCtx.new file root)
    ⟨Generator.new_ok _ _ _, fun _ => List.Pairwise.nil, rfl, Nat.le_refl _⟩ hl
  have hsorted : (n.walk (WalkCtx.new file root)).map.mappings.sort.list.Pairwise
      (fun a b => Mapping.le a b = true) := by
    rw [MappingList.sort_list h.truthful]; exact sortBy_sorted _
  obtain ⟨m, e, _, _, _, hp⟩ := Generator.toSourceMap_ok h.ok hsorted
  have hcore : (n.walk (WalkCtx.new file root)).map.mappings = (Core.new.walk n.leaves).mappings :=
    congrArg Core.mappings (SmNode.walk_core n (WalkCtx.new file root))
  have he : n.toStringWithSourceMap file root = .ok ⟨(n.walk (WalkCtx.new file root)).code, m⟩ := by
    unfold SmNode.toStringWithSourceMap
    dsimp only
    rw [e]
  refine ⟨_, _, he, hp, C09_text n file root _ he, ?_, ?_⟩
  · rw [displayed_text]; exact SmNode.marks_text n
  rw [hcore] at hsorted ⊢
  have hperm := (Core.new.walk n.leaves).mappings.sort_perm
  obtain ⟨cur, here, hi⟩ := CoreInv.walk (G := False) n.leaves (CoreInv.new False) (fun f => f.elim)
  have := walk_displayed hsorted (fun x hx => hi.shape x (hperm.mem_iff.1 hx)) n.leaves (ds := [])
    (seen := none) (CoreInv.new False) (fun x => hperm.mem_iff) rfl (fun k c o hk => by simp at hk) (fun hno =>
      lookup_bol (l := 1) hno)
  simpa using this

/-! Non-trivial cases: an unattributed `x` after an empty string of file 1 is said to come from there
(the known defect); so is what follows on its line. -/

example : displayed none none [] C09_bad.leaves ≠ C09_bad.marks := by decide
example : displayed none none [] C09_deleted.leaves = C09_deleted.marks := by decide
example : displayed none none []
    [("".toList, some ⟨1, 2, 0, none⟩), ("x\ny".toList, none), ("z".toList, some ⟨0, 1, 0, none⟩)] =
    [('x', some ⟨1, 2, 0, none⟩), ('\n', some ⟨1, 2, 0, none⟩), ('y', none), ('z', some ⟨0, 1, 0, none⟩)] := by
  decide

end WS
