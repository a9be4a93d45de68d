import Verif.Spec.Canonical
import Verif.Proofs.Ghosts
import Verif.Proofs.Walk
import Verif.Proofs.NodeText
/-! # The mappings of a tree without empty strings -/

namespace WS
open Spec

/-! ## Numbers -/

theorem b64Char_alphabet : ∀ n < 64, b64Char n = alphabet.getD n 'A' := by decide

theorem vlqDigits_write : ∀ (f u : Nat), u ≤ f → vlqDigits f u = writeNat u
  | 0, u, h => by
    have : u = 0 := by omega
    subst this
    rw [vlqDigits, writeNat, if_pos (by decide), b64Char_alphabet _ (by decide)]
  | f + 1, u, h => by
    rw [vlqDigits, writeNat]
    by_cases hu : u < 32
    · rw [if_pos hu, if_pos hu, b64Char_alphabet _ (by omega)]
    · rw [if_neg hu, if_neg hu, b64Char_alphabet _ (by omega), vlqDigits_write f _ (by omega)]

theorem vlqEncode_write (i : Int) : vlqEncode i = writeInt i := by
  rw [vlqEncode, vlqDigits_write _ _ (Nat.le_refl _)]; rfl

/-! ## Serialisation -/

theorem idxOf_of_nodup : ∀ {l : List Int} {i : Nat} {s : Int}, l.Nodup → l[i]? = some s → l.idxOf s = i
  | [], _, _, _, h => by cases h
  | a :: l, 0, s, _, h => by cases h; simp
  | a :: l, i + 1, s, hn, h => by
    rw [List.getElem?_cons_succ] at h
    have hne : a ≠ s := fun e => (List.nodup_cons.1 hn).1 (e ▸ List.mem_of_getElem? h)
    rw [List.idxOf_cons, idxOf_of_nodup (List.nodup_cons.1 hn).2 h, beq_false_of_ne hne]
    rfl

theorem Table.lookup_idxOf {t : List (Int × Nat)} (h : Table t) {s : Int} (hs : s ∈ t.map Prod.fst) :
    t.lookup s = some ((t.map Prod.fst).idxOf s) := by
  cases hl : t.lookup s with
  | none => rw [← lookup_isSome, hl] at hs; cases hs
  | some i =>
    have := h.get hl
    rw [idxOf_of_nodup h.2 this]

/-- A mapping as a segment, given the arrays. -/
def Mapping.seg (ss ns : List Int) (m : Mapping) : Seg :=
  ⟨m.generated.1, m.generated.2,
    match m.source, m.original with
    | some s, some (ol, oc) => some (ss.idxOf s, (ol - 1 : Nat), oc, m.name.map fun n => (ns.idxOf n : Int))
    | _, _ => none⟩

theorem serFields_write {sources names : List (Int × Nat)} (hs : Table sources) (hn : Table names) {st : SerState}
    {m : Mapping} (hv : m.Valid) (h1 : ∀ s, m.source = some s → s ∈ sources.map Prod.fst)
    (h2 : ∀ n, m.name = some n → n ∈ names.map Prod.fst) :
    ∃ st', serFields sources names st m =
        .ok (((m.seg (sources.map Prod.fst) (names.map Prod.fst)).write st.acc).1, st') ∧
      st'.gen = (st.gen.1, m.generated.2) ∧
      st'.acc = ((m.seg (sources.map Prod.fst) (names.map Prod.fst)).write st.acc).2 := by
  obtain ⟨g, s, n, o⟩ := m
  obtain ⟨h0, hv⟩ := hv
  cases s with
  | none =>
    refine ⟨{ st with gen := (st.gen.1, g.2) }, ?_, rfl, rfl⟩
    simp only [serFields, Mapping.seg, Seg.write, vlqEncode_write, SerState.acc]
  | some s =>
    cases o with
    | none => exact hv.elim
    | some o =>
      obtain ⟨ol, oc⟩ := o
      have hv : 1 ≤ ol ∧ ol ≤ 4294967296 := hv
      have e1 := hs.lookup_idxOf (h1 s rfl)
      have e2 : (ol : Int) - 1 = ((ol - 1 : Nat) : Int) := by omega
      have e3 : toUsize ((ol - 1 : Nat) : Int) = ol - 1 := toUsize_of_nat (by omega)
      cases n with
      | none =>
        refine ⟨{ st with gen := (st.gen.1, g.2), source := (sources.map Prod.fst).idxOf s, orig := (ol - 1, oc) },
          ?_, rfl, rfl⟩
        simp only [serFields, e1, e2, e3, Mapping.seg, Seg.write, vlqEncode_write, SerState.acc, Option.map_none]
      | some n =>
        have e4 := hn.lookup_idxOf (h2 n rfl)
        refine ⟨⟨(st.gen.1, g.2), (ol - 1, oc), (names.map Prod.fst).idxOf n, (sources.map Prod.fst).idxOf s⟩,
          ?_, rfl, rfl⟩
        simp only [serFields, e1, e2, e3, e4, Mapping.seg, Seg.write, vlqEncode_write, SerState.acc, Option.map_some]

theorem serLoop_write {sources names : List (Int × Nat)} (hs : Table sources) (hn : Table names) :
    ∀ (ms : List Mapping) (st : SerState) (notFirst : Bool),
      (∀ m ∈ ms, m.Valid) → (∀ m ∈ ms, st.gen.1 ≤ m.generated.1) →
      ms.Pairwise (fun a b => a.generated.1 ≤ b.generated.1) →
      (∀ m ∈ ms, ∀ s, m.source = some s → s ∈ sources.map Prod.fst) →
      (∀ m ∈ ms, ∀ n, m.name = some n → n ∈ names.map Prod.fst) →
      serLoop sources names notFirst st ms =
        .ok (writeSegs st.gen.1 notFirst st.acc (ms.map (Mapping.seg (sources.map Prod.fst) (names.map Prod.fst)))) := by
  intro ms
  induction ms with
  | nil => intro st nf _ _ _ _ _; rfl
  | cons m ms ih =>
    intro st nf hv hge hpw hsrc hnm
    rw [List.pairwise_cons] at hpw
    have hge0 := hge m (by simp)
    have go : ∀ (st1 : SerState), st1.gen.1 = m.generated.1 → ∃ st2, serFields sources names st1 m =
        .ok (((m.seg (sources.map Prod.fst) (names.map Prod.fst)).write st1.acc).1, st2) ∧
        serLoop sources names true st2 ms = .ok (writeSegs m.generated.1 true
          ((m.seg (sources.map Prod.fst) (names.map Prod.fst)).write st1.acc).2
          (ms.map (Mapping.seg (sources.map Prod.fst) (names.map Prod.fst)))) := by
      intro st1 h1
      obtain ⟨st2, e1, e2, e3⟩ := serFields_write (st := st1) hs hn (hv m (by simp)) (hsrc m (by simp)) (hnm m (by simp))
      refine ⟨st2, e1, ?_⟩
      have e4 : st2.gen.1 = m.generated.1 := by rw [e2]; exact h1
      rw [ih st2 true (fun x hx => hv x (by simp [hx])) (fun x hx => e4 ▸ hpw.1 x hx) hpw.2
        (fun x hx => hsrc x (by simp [hx])) (fun x hx => hnm x (by simp [hx])), e3, e4]
    rw [serLoop, List.map_cons, writeSegs]
    by_cases h : m.generated.1 = st.gen.1
    · have hsep : serSep st nf m = .ok (if nf then [','] else [], st) := by
        unfold serSep; rw [if_neg (by simpa using h)]
      obtain ⟨st2, e1, e2⟩ := go st h.symm
      have hl : (m.seg (sources.map Prod.fst) (names.map Prod.fst)).line = st.gen.1 := h
      rw [hsep, if_pos hl]
      simp only [e1, e2]
      rw [h]
    · have hsep : serSep st nf m = .ok (List.replicate (m.generated.1 - st.gen.1) ';',
          { st with gen := (m.generated.1, 0) }) := by
        unfold serSep; rw [if_pos h, if_neg (by omega)]
      obtain ⟨st2, e1, e2⟩ := go { st with gen := (m.generated.1, 0) } rfl
      have hl : (m.seg (sources.map Prod.fst) (names.map Prod.fst)).line ≠ st.gen.1 := h
      rw [hsep, if_neg hl]
      simp only [e1, e2]
      rfl

/-! ## The walk -/

theorem changes_append {α : Type} [DecidableEq α] (a b : List (Char × Option α)) : ∀ (last : Option α) (p : Nat × Nat),
    changes last p (a ++ b) = changes last p a ++
      changes (a.foldl (fun _ x => if x.1 = '\n' then none else x.2) last) (posFrom p (a.map Prod.fst)) b := by
  induction a with
  | nil => intro last p; rfl
  | cons x a ih =>
    intro last p
    obtain ⟨c, o⟩ := x
    rw [List.cons_append, changes, changes, ih]
    simp [posFrom, List.append_assoc]

/-- The origin written down last, on the line. -/
structure Core.At (c : Core) (last : Option Origin) : Prop where
  active : c.active = last.isSome
  last : c.LastIs last

theorem Core.chars_changes (o : Option Origin) : ∀ (s : Str) (c : Core), s ≠ [] → c.At o →
    (Core.chars o c s).mappings.list = c.mappings.list ++ (changes o c.gen (uniform o s)).map (fun p => mapAt p.1 p.2) ∧
    (Core.chars o c s).gen = posFrom c.gen s ∧
    (Core.chars o c s).At ((uniform o s).foldl (fun _ x => if x.1 = '\n' then none else x.2) o)
  | [], _, h, _ => (h rfl).elim
  | [ch], c, _, A => by
    by_cases h : ch = '\n'
    · subst h
      simp only [Core.chars, if_true, List.isEmpty_nil, uniform, List.map_cons, List.map_nil, changes, List.nil_append,
        List.append_nil, posFrom, List.foldl_cons, List.foldl_nil, advance, true_and]
      exact ⟨rfl, rfl⟩
    · simp only [Core.chars, if_neg h, uniform, List.map_cons, List.map_nil, changes, if_true, List.nil_append,
        List.append_nil, posFrom, List.foldl_cons, List.foldl_nil, advance, true_and]
      exact ⟨A.active, A.last⟩
  | ch :: c2 :: rest, c, _, A => by
    by_cases h : ch = '\n'
    · subst h
      rw [Core.chars]
      simp only [if_true, List.isEmpty_cons, Bool.false_eq_true, if_false]
      cases o with
      | none =>
        have := Core.chars_changes none (c2 :: rest) { c with gen := (c.gen.1 + 1, 0) } (by simp) ⟨A.active, A.last⟩
        obtain ⟨h1, h2, h3⟩ := this
        refine ⟨?_, ?_, ?_⟩
        · dsimp only at h1 ⊢
          rw [h1]; simp [uniform, changes, advance]
        · dsimp only at h2 ⊢
          rw [h2]; simp [posFrom, advance]
        · dsimp only at h3 ⊢
          simpa [uniform] using h3
      | some o =>
        have := Core.chars_changes (some o) (c2 :: rest) { c with
          gen := (c.gen.1 + 1, 0)
          mappings := (c.mappings.add ⟨(c.gen.1 + 1, 0), some o.source, o.name, some (o.line, o.col)⟩) } (by simp) ⟨A.active, A.last⟩
        obtain ⟨h1, h2, h3⟩ := this
        refine ⟨?_, ?_, ?_⟩
        · dsimp only at h1 ⊢
          rw [h1, MappingList.add_list]; simp [uniform, changes, advance, mapAt]
        · dsimp only at h2 ⊢
          rw [h2]; simp [posFrom, advance]
        · dsimp only at h3 ⊢
          simpa [uniform] using h3
    · rw [Core.chars, if_neg h]
      have := Core.chars_changes o (c2 :: rest) { c with gen := (c.gen.1, c.gen.2 + 1) } (by simp) ⟨A.active, A.last⟩
      obtain ⟨h1, h2, h3⟩ := this
      refine ⟨?_, ?_, ?_⟩
      · rw [h1]; simp [uniform, changes, advance, h]
      · rw [h2]; simp [posFrom, advance, h]
      · simpa [uniform, h] using h3

theorem Core.head_changes (c : Core) (last o : Option Origin) (A : c.At last) :
    (c.head o).mappings.list = c.mappings.list ++ (if o = last then [] else [mapAt c.gen o]) ∧
    (c.head o).gen = c.gen ∧ (c.head o).At o := by
  cases o with
  | none =>
    cases last with
    | none =>
      have ha : c.active = false := A.active
      have : c.head none = c := by simp [Core.head, ha]
      rw [this]
      exact ⟨by simp, rfl, A⟩
    | some q =>
      have ha : c.active = true := A.active
      simp only [Core.head, ha, if_true]
      exact ⟨by simp [MappingList.add_list, mapAt], trivial, ⟨rfl, rfl⟩⟩
  | some o =>
    simp only [Core.head]
    refine ⟨?_, trivial, ⟨rfl, rfl, rfl, rfl⟩⟩
    have key : (c.lastSource ≠ some o.source ∨ c.lastPos ≠ some (o.line, o.col) ∨ c.lastName ≠ o.name) ↔
        ¬ (some o = last) := by
      have hl := A.last
      cases last with
      | none =>
        have hl : c.lastSource = none := hl
        simp [hl]
      | some q =>
        obtain ⟨l1, l2, l3⟩ := hl
        obtain ⟨a1, a2, a3, a4⟩ := o
        obtain ⟨b1, b2, b3, b4⟩ := q
        dsimp only at l1 l2 l3
        simp only [l1, l2, l3, ne_eq, Option.some.injEq, Prod.mk.injEq, Origin.mk.injEq]
        constructor
        · rintro h ⟨rfl, rfl, rfl, rfl⟩; simp at h
        · intro h
          by_cases e1 : b1 = a1
          · by_cases e2 : b2 = a2 ∧ b3 = a3
            · right; right
              intro e3
              exact h ⟨e1.symm, e2.1.symm, e2.2.symm, e3.symm⟩
            · exact .inr (.inl e2)
          · exact .inl e1
    by_cases h : some o = last
    · rw [if_neg (fun hk => key.1 hk h), if_pos h, List.append_nil]
    · rw [if_pos (key.2 h), if_neg h, MappingList.add_list]; rfl

theorem changes_uniform {o last : Option Origin} {s : Str} (hs : s ≠ []) (p : Nat × Nat) :
    changes last p (uniform o s) = (if o = last then [] else [(p, o)]) ++ changes o p (uniform o s) := by
  cases s with
  | nil => exact (hs rfl).elim
  | cons c s => simp [uniform, changes]

theorem foldl_uniform {o last last' : Option Origin} {s : Str} (hs : s ≠ []) :
    (uniform o s).foldl (fun _ x => if x.1 = '\n' then none else x.2) last =
    (uniform o s).foldl (fun _ x => if x.1 = '\n' then none else x.2) last' := by
  cases s with
  | nil => exact (hs rfl).elim
  | cons c s => rfl

theorem Core.walk_changes : ∀ (L : List (Str × Option Origin)) (c : Core) (last : Option Origin), FullLeaves L →
    c.At last →
    (c.walk L).mappings.list = c.mappings.list ++ (changes last c.gen (marked L)).map fun p => mapAt p.1 p.2
  | [], c, last, _, _ => by simp [Core.walk, marked, changes]
  | (s, o) :: L, c, last, hf, A => by
    have hs : s ≠ [] := hf (s, o) (by simp)
    obtain ⟨h1, h2, h3⟩ := c.head_changes last o A
    obtain ⟨k1, k2, k3⟩ := Core.chars_changes o s (c.head o) hs h3
    rw [Core.walk, Core.walk_changes L _ _ (fun l hl => hf l (by simp [hl])) k3, k1, h1]
    have hm : marked ((s, o) :: L) = uniform o s ++ marked L := by simp [marked, uniform]
    rw [hm, changes_append, changes_uniform (last := last) hs, k2, h2, foldl_uniform hs (last := last) (last' := o)]
    have : (uniform o s).map Prod.fst = s := by simp [uniform, Function.comp_def]
    rw [this]
    rw [List.map_append, List.map_append, List.append_assoc, List.append_assoc, List.append_assoc]
    by_cases h : o = last
    · rw [if_pos h, if_pos h]; rfl
    · rw [if_neg h, if_neg h]; rfl

/-! ## The tables -/

/-- The arrays list what the mappings mention, in order. -/
structure Generator.Lists (g : Generator) : Prop where
  sources : g.sources.map Prod.fst = firsts [] (g.mappings.list.filterMap (·.source))
  names : g.names.map Prod.fst = firsts [] (g.mappings.list.filterMap (·.name))

theorem firsts_congr {β : Type} [DecidableEq β] : ∀ (l : List β) {s s' : List β}, (∀ b, b ∈ s ↔ b ∈ s') →
    firsts s l = firsts s' l
  | [], _, _, _ => rfl
  | b :: l, s, s', h => by
    rw [firsts, firsts]
    by_cases hb : b ∈ s
    · rw [if_pos hb, if_pos ((h b).1 hb), firsts_congr l h]
    · rw [if_neg hb, if_neg (fun x => hb ((h b).2 x)), firsts_congr l (s := b :: s) (s' := b :: s') (by simp [h])]

theorem mem_firsts {β : Type} [DecidableEq β] {a : β} : ∀ (l s : List β), a ∈ firsts s l ↔ a ∈ l ∧ a ∉ s
  | [], s => by simp [firsts]
  | b :: l, s => by
    rw [firsts]
    by_cases hb : b ∈ s
    · rw [if_pos hb, mem_firsts l s, List.mem_cons]
      constructor
      · rintro ⟨h1, h2⟩; exact ⟨.inr h1, h2⟩
      · rintro ⟨h1 | h1, h2⟩
        · subst h1; exact absurd hb h2
        · exact ⟨h1, h2⟩
    · rw [if_neg hb, List.mem_cons, mem_firsts l, List.mem_cons, List.mem_cons]
      constructor
      · rintro (h | ⟨h1, h2⟩)
        · subst h; exact ⟨.inl rfl, hb⟩
        · exact ⟨.inr h1, fun h => h2 (.inr h)⟩
      · rintro ⟨h1 | h1, h2⟩
        · exact .inl h1
        · by_cases h : a = b
          · exact .inl h
          · exact .inr ⟨h1, by simp [h, h2]⟩

theorem firsts_append {β : Type} [DecidableEq β] (l' : List β) : ∀ (l s : List β), firsts s (l ++ l') =
    firsts s l ++ firsts (l ++ s) l'
  | [], s => rfl
  | b :: l, s => by
    rw [List.cons_append, firsts, firsts]
    by_cases hb : b ∈ s
    · rw [if_pos hb, if_pos hb, firsts_append l' l s]
      congr 1
      exact firsts_congr l' (by intro x; simp only [List.mem_append, List.mem_cons]; constructor
                                · rintro (h | h); exact .inl (.inr h); exact .inr h
                                · rintro ((h | h) | h)
                                  · subst h; exact .inr hb
                                  · exact .inl h
                                  · exact .inr h)
    · rw [if_neg hb, if_neg hb, firsts_append l' l (b :: s), List.cons_append]
      congr 2
      exact firsts_congr l' (by intro x; simp [or_left_comm])

theorem insert_firsts {t : List (Int × Nat)} {l : List Int} (h : t.map Prod.fst = firsts [] l) (s : Int) (k : Nat) :
    (amOrInsert t s k).map Prod.fst = firsts [] (l ++ [s]) := by
  rw [firsts_append]
  unfold amOrInsert
  have hm : s ∈ t.map Prod.fst ↔ s ∈ l := by rw [h, mem_firsts]; simp
  cases hl : t.lookup s with
  | some i =>
    have : s ∈ t.map Prod.fst := lookup_isSome.1 (by rw [hl]; rfl)
    simp [firsts, hm.1 this, h]
  | none =>
    have : s ∉ t.map Prod.fst := by rw [← lookup_isSome, hl]; simp
    have hn : s ∉ l := fun x => this (hm.2 x)
    simp [firsts, hn, h]

theorem Generator.Lists.addMapping {g : Generator} (h : g.Lists) (m : Mapping) : (g.addMapping m).Lists := by
  constructor
  · rw [g.addMapping_sources, g.addMapping_mappings, MappingList.add_list, List.filterMap_append]
    cases hs : m.source with
    | none => simpa [hs] using h.sources
    | some s =>
      have := insert_firsts h.sources s g.sources.length
      simpa [hs] using this
  · rw [g.addMapping_names, g.addMapping_mappings, MappingList.add_list, List.filterMap_append]
    cases hs : m.name with
    | none => simpa [hs] using h.names
    | some s =>
      have := insert_firsts h.names s g.names.length
      simpa [hs] using this

theorem chunkHead_lists {c : WalkCtx} (h : c.map.Lists) (chunk : Str) (src : Option Int) (pos : Option (Nat × Nat))
    (name : Option Int) : (chunkHead c chunk src pos name).map.Lists := by
  unfold chunkHead
  dsimp only
  split
  · split
    · exact h.addMapping _
    · exact h
  · split
    · exact Generator.Lists.addMapping (g := c.map) h ⟨c.gen, none, none, none⟩
    · exact h

theorem chunkChars_lists (src : Option Int) (pos : Option (Nat × Nat)) (name : Option Int) :
    ∀ (rest : Str) {c : WalkCtx}, c.map.Lists → (chunkChars src pos name c rest).map.Lists := by
  intro rest
  induction rest with
  | nil => intro c h; exact h
  | cons ch rest ih =>
    intro c h
    rw [chunkChars]
    split
    · dsimp only
      apply ih
      split
      · exact h
      · split
        · exact h.addMapping _
        · exact h
    · exact ih h

theorem processContents_lists (cs : List (Int × Int)) : ∀ {c : WalkCtx}, c.map.Lists →
    (cs.foldl processContent c).map.Lists := by
  induction cs with
  | nil => intro c h; exact h
  | cons p cs ih =>
    intro c h
    rw [List.foldl_cons]
    exact ih ⟨h.sources, h.names⟩

mutual
  theorem SmNode.walk_lists : ∀ (n : SmNode) {c : WalkCtx}, c.map.Lists → (n.walk c).map.Lists
    | .str s, c, h => by
      rw [SmNode.walk]
      exact chunkChars_lists none none none s (chunkHead_lists h s none none none)
    | .node pos src name cs ch, c, h => by
      rw [SmNode.walk]
      exact processContents_lists cs (SmNode.walkList_lists pos src name ch h)
  theorem SmNode.walkList_lists (pos : Option (Nat × Nat)) (src name : Option Int) :
      ∀ (ch : List SmNode) {c : WalkCtx}, c.map.Lists → (SmNode.walkList pos src name ch c).map.Lists
    | [], c, h => h
    | .str s :: rest, c, h => by
      rw [SmNode.walkList]
      exact SmNode.walkList_lists pos src name rest (chunkChars_lists src pos name s (chunkHead_lists h s src pos name))
    | .node p s n cs ch :: rest, c, h => by
      rw [SmNode.walkList]
      exact SmNode.walkList_lists pos src name rest (SmNode.walk_lists (.node p s n cs ch) h)
end

/-- The changes mention what the characters mention. -/
theorem firsts_changes {α β : Type} [DecidableEq α] [DecidableEq β] (f : α → Option β) :
    ∀ (m : List (Char × Option α)) (last : Option α) (p : Nat × Nat) (seen : List β),
    (∀ x, last = some x → ∀ b, f x = some b → b ∈ seen) →
    firsts seen ((changes last p m).filterMap fun q => q.2.bind f) = firsts seen (m.filterMap fun q => q.2.bind f)
  | [], _, _, _, _ => rfl
  | (c, o) :: m, last, p, seen, h => by
    rw [changes, List.filterMap_append, firsts_append, List.filterMap_cons]
    have next : ∀ (s : List β), (∀ x, o = some x → ∀ b, f x = some b → b ∈ s) →
        firsts s ((changes (if c = '\n' then none else o) (advance p c) m).filterMap fun q => q.2.bind f) =
          firsts s (m.filterMap fun q => q.2.bind f) := by
      intro s hs
      refine firsts_changes f m _ _ s fun x hx => ?_
      split at hx
      · cases hx
      · exact hs x hx
    by_cases ho : o = last
    · rw [if_pos ho]
      simp only [List.filterMap_nil, firsts, List.nil_append]
      subst ho
      rw [next seen h]
      cases hb : o.bind f with
      | none => rfl
      | some b =>
        obtain ⟨x, rfl, hx⟩ := Option.bind_eq_some_iff.1 hb
        simp only [firsts, if_pos (h x rfl b hx)]
    · rw [if_neg ho]
      cases hb : o.bind f with
      | none =>
        simp only [List.filterMap_cons, List.filterMap_nil, hb, firsts, List.nil_append]
        exact next seen fun x hx b hxb => by rw [hx] at hb; simp [hxb] at hb
      | some b =>
        simp only [List.filterMap_cons, List.filterMap_nil, hb]
        rw [next _ (fun x hx b' hxb => by rw [hx] at hb; simp only [Option.bind_some, hxb] at hb; cases hb; simp)]
        simp only [firsts]
        by_cases hbs : b ∈ seen
        · rw [if_pos hbs, if_pos hbs, List.nil_append]
          exact firsts_congr _ (by intro x; simp; intro h; exact h ▸ hbs)
        · rw [if_neg hbs, if_neg hbs]; rfl

/-! ## Trees -/

/-- A change as a segment. -/
def changeSeg (ss ns : List Int) (p : (Nat × Nat) × Option Origin) : Seg :=
  ⟨p.1.1, p.1.2, p.2.map fun o => (ss.idxOf o.source, (o.line - 1 : Nat), o.col, o.name.map fun n => (ns.idxOf n : Int))⟩

theorem mapAt_seg (ss ns : List Int) (p : (Nat × Nat) × Option Origin) :
    (mapAt p.1 p.2).seg ss ns = changeSeg ss ns p := by
  obtain ⟨g, o⟩ := p
  cases o <;> rfl

/-- What rendering a tree without empty strings gives: exactly this. -/
theorem SmNode.render_exact (n : SmNode) (file : Option Int) (root : Option Str) (hf : FullLeaves n.leaves)
    (hok : ∀ l ∈ n.leaves, LeafOk l) :
    ∃ r, n.toStringWithSourceMap file root = .ok r ∧ r.source = n.text ∧
      r.map.sources = firsts [] (n.marks.filterMap fun p => p.2.map (·.source)) ∧
      r.map.names = firsts [] (n.marks.filterMap fun p => p.2.bind (·.name)) ∧
      r.map.mappings = encode ((changes none (1, 0) n.marks).map (changeSeg r.map.sources r.map.names)) := by
  have h := SmNode.walk_inv n (WalkCtx.new_inv file root) hok
  have hsort : (n.walk (WalkCtx.new file root)).map.mappings.sort.list =
      (n.walk (WalkCtx.new file root)).map.mappings.list := by
    rw [MappingList.sort_list h.truthful]
    exact sortBy_of_pairwise _ h.ordered
  have hlist : (n.walk (WalkCtx.new file root)).map.mappings.list =
      (changes none (1, 0) n.marks).map fun p => mapAt p.1 p.2 := by
    have h1 := congrArg Core.mappings (SmNode.walk_core n (WalkCtx.new file root))
    have h2 := Core.walk_changes n.leaves Core.new none hf ⟨rfl, rfl⟩
    have h1 : (n.walk (WalkCtx.new file root)).map.mappings = (Core.new.walk n.leaves).mappings := h1
    rw [h1, h2]; rfl
  have hls := SmNode.walk_lists n (c := WalkCtx.new file root) ⟨rfl, rfl⟩
  have ho := Generator.sort_ok h.ok
  have hser := serLoop_write ho.sources ho.names (n.walk (WalkCtx.new file root)).map.mappings.sort.list {} false ho.valid
    (fun m hm => (ho.valid m hm).1) (sorted_lines (by rw [hsort]; exact h.ordered)) ho.srcIn ho.nameIn
  generalize hS : writeSegs _ _ _ _ = S at hser
  refine ⟨⟨(n.walk (WalkCtx.new file root)).code, ⟨3, (n.walk (WalkCtx.new file root)).map.file,
    (n.walk (WalkCtx.new file root)).map.sourceRoot, (n.walk (WalkCtx.new file root)).map.sources.map Prod.fst,
    (n.walk (WalkCtx.new file root)).map.sources.filterMap
      (fun p => (n.walk (WalkCtx.new file root)).map.contents.lookup p.1),
    (n.walk (WalkCtx.new file root)).map.names.map Prod.fst, S⟩⟩, ?_, ?_, ?_, ?_, ?_⟩
  · unfold SmNode.toStringWithSourceMap Generator.toSourceMap Generator.serializeMappings
    dsimp only
    rw [hser]
  · simpa using h.code
  · dsimp only
    rw [hls.sources, hlist, List.filterMap_map]
    have := firsts_changes (f := fun o : Origin => some o.source) n.marks none (1, 0) [] (by simp)
    have e : ∀ q : Option Origin, (q.bind fun o => some o.source) = q.map (·.source) := by
      intro q; cases q <;> rfl
    simp only [e] at this
    rw [← this]
    congr 2
    funext q
    obtain ⟨_, o⟩ := q
    cases o <;> rfl
  · dsimp only
    rw [hls.names, hlist, List.filterMap_map]
    have := firsts_changes (f := fun o : Origin => o.name) n.marks none (1, 0) [] (by simp)
    rw [← this]
    congr 2
    funext q
    obtain ⟨_, o⟩ := q
    cases o <;> rfl
  · dsimp only
    rw [← hS, hsort, hlist, List.map_map, encode]
    congr 1
    refine List.map_congr_left fun p _ => ?_
    exact mapAt_seg _ _ p

end WS
