import Verif.Props.C60Given
import Verif.Props.C64
/-!
# C85: the segments of an emitted map lie in the emitted text

Claim: the position of every segment of an emitted map is a position of the text of the same pair: that of a character
or, in maps with columns, that behind the last one.
-/

namespace WS
open Spec

/-! ## Spec -/

/-- The position is that of a character of the text, or that behind the last one. -/
def Spec.InTheText (t : List Char) (line col : Nat) : Prop := ∃ i, i ≤ t.length ∧ posAfter (t.take i) = (line, col)

/-- The position is that of a character of the text. -/
def Spec.AtChar (t : List Char) (line col : Nat) : Prop := ∃ i, i < t.length ∧ posAfter (t.take i) = (line, col)

/-- The same, columns in bytes. -/
def Spec.AtByte (t : List Char) (line col : Nat) : Prop :=
  ∃ i, i < t.length ∧ posFromB (1, 0) (t.take i) = (line, col)

/-- The pair `k` has a text and a map, and the position of each segment satisfies `P`. -/
def Spec.SegmentsIn (P : List Char → Nat → Nat → Prop) (w : World) (k : Nat) : Prop :=
  ∃ t l s ps, Reads w k .source (.text t) ∧ Reads w k .sources (.list l) ∧ Reads w k .mappings (.text s) ∧
    ((∃ ns, Reads w k .names (.list ns) ∧ points (idTable l.length) (idTable ns.length) s = some ps) ∨
      (Reads w k .names .undefined ∧ points (idTable l.length) [] s = some ps)) ∧
    ∀ pt ∈ ps, P t pt.line pt.col

/-! ## Maps with columns -/

theorem Core.head_at (c : Core) (o : Option Origin) : ∀ m ∈ (c.head o).mappings.list,
    m ∈ c.mappings.list ∨ m.generated = c.gen := by
  intro m hm
  unfold Core.head at hm
  cases o with
  | some o =>
    dsimp only at hm
    split at hm
    · rw [MappingList.add_list] at hm
      rcases List.mem_append.1 hm with h | h
      · exact .inl h
      · rw [List.mem_singleton.1 h]; exact .inr rfl
    · exact .inl hm
  | none =>
    dsimp only at hm
    split at hm
    · dsimp only at hm
      rw [MappingList.add_list] at hm
      rcases List.mem_append.1 hm with h | h
      · exact .inl h
      · rw [List.mem_singleton.1 h]; exact .inr rfl
    · exact .inl hm

theorem Core.chars_at (o : Option Origin) : ∀ (s : Str) (c : Core), ∀ m ∈ (Core.chars o c s).mappings.list,
    m ∈ c.mappings.list ∨ ∃ i, i ≤ s.length ∧ m.generated = posFrom c.gen (s.take i)
  | [], _, m, hm => .inl hm
  | ch :: s, c, m, hm => by
    have step : ∀ {g : Nat × Nat}, g = advance c.gen ch → ∀ i, i ≤ s.length → m.generated = posFrom g (s.take i) →
        ∃ i, i ≤ (ch :: s).length ∧ m.generated = posFrom c.gen ((ch :: s).take i) := by
      intro g hg i h1 h2
      refine ⟨i + 1, by simpa using h1, ?_⟩
      rw [h2, hg]; rfl
    rw [Core.chars] at hm
    split at hm
    · rename_i hc
      have hg : (c.gen.1 + 1, 0) = advance c.gen ch := by rw [advance, if_pos hc]
      dsimp only at hm
      rcases Core.chars_at o s _ m hm with h | ⟨i, h1, h2⟩
      · split at h
        · exact .inl h
        · cases o with
          | none => exact .inl h
          | some o =>
            dsimp only at h
            rw [MappingList.add_list] at h
            rcases List.mem_append.1 h with h | h
            · exact .inl h
            · refine .inr (step hg 0 (Nat.zero_le _) ?_)
              rw [List.mem_singleton.1 h]; rfl
      · refine .inr (step hg i h1 ?_)
        rw [h2]
        congr 1
        split
        · rfl
        · cases o <;> rfl
    · rename_i hc
      have hg : (c.gen.1, c.gen.2 + 1) = advance c.gen ch := by rw [advance, if_neg hc]
      rcases Core.chars_at o s _ m hm with h | ⟨i, h1, h2⟩
      · exact .inl h
      · exact .inr (step hg i h1 h2)

theorem Core.walk_at : ∀ (L : List (Str × Option Origin)) (c : Core), ∀ m ∈ (c.walk L).mappings.list,
    m ∈ c.mappings.list ∨ ∃ i, i ≤ (L.map Prod.fst).flatten.length ∧
      m.generated = posFrom c.gen ((L.map Prod.fst).flatten.take i)
  | [], _, m, hm => .inl hm
  | (s, o) :: L, c, m, hm => by
    rw [Core.walk] at hm
    rcases Core.walk_at L _ m hm with h | ⟨i, h1, h2⟩
    · rcases Core.chars_at o s _ m h with h | ⟨i, h1, h2⟩
      · rcases Core.head_at c o m h with h | h
        · exact .inl h
        · exact .inr ⟨0, Nat.zero_le _, h⟩
      · refine .inr ⟨i, by
        rw [List.map_cons, List.flatten_cons, List.length_append]; dsimp only; omega, ?_⟩
        rw [h2, Core.head_gen, List.map_cons, List.flatten_cons, List.take_append_of_le_length h1]
    · refine .inr ⟨s.length + i, by
        rw [List.map_cons, List.flatten_cons, List.length_append]; dsimp only; omega, ?_⟩
      rw [h2, Core.chars_gen, Core.head_gen, List.map_cons, List.flatten_cons, List.take_length_add_append,
        posFrom_append]

/-- The segments of a rendered node lie in its text. -/
theorem SmNode.render_at {n : SmNode} (hl : ∀ l ∈ n.leaves, LineOk l) {r : StringWithSourceMap}
    (h : n.toStringWithSourceMap none none = .ok r) :
    ∃ qs, mapPoints r.map = some qs ∧ ∀ p ∈ qs, InTheText r.source p.line p.col := by
  have hi := SmNode.walk_ok n (c := WalkCtx.new none none)
    ⟨Generator.new_ok _ _ _, fun _ => List.Pairwise.nil, rfl, Nat.le_refl _⟩ hl
  obtain ⟨-, g', hg⟩ := node_map h
  obtain ⟨m, e1, -, -, -, e4⟩ := Generator.toSourceMap_ok hi.ok (by
    rw [MappingList.sort_list hi.truthful]; exact sortBy_sorted _)
  have hm : m = r.map := by
    have := e1.symm.trans hg
    cases this; rfl
  subst hm
  refine ⟨_, e4, ?_⟩
  intro p hp
  obtain ⟨m, hm, rfl⟩ := List.mem_map.1 hp
  have hm := (MappingList.sort_perm _).mem_iff.1 hm
  have h1 := congrArg Core.mappings (SmNode.walk_core n (WalkCtx.new none none))
  have h1 : (n.walk (WalkCtx.new none none)).map.mappings = (Core.new.walk n.leaves).mappings := h1
  rw [h1] at hm
  have ht : r.source = (n.leaves.map Prod.fst).flatten := C09_text n none none r h
  rcases Core.walk_at n.leaves Core.new m hm with h | ⟨i, h2, h3⟩
  · simp [Core.new, MappingList.new] at h
  · exact ⟨i, ht ▸ h2, by rw [ht]; exact h3.symm⟩

variable {U : Pool}

theorem inTheText_of_tells {w w2 : World} {k : Nat} {n : SmNode} (hin : n.In (dom U w.strs)) (hl : n.Lined)
    (grown : ∃ x, w2.strs.array = w.strs.array ++ x)
    (tells : ∀ r, n.toStringWithSourceMap none none = .ok r → ∀ f,
      ∃ e, w2.maps[k]? = some e ∧ e.Tells true r.source r.map f w2.strs) : SegmentsIn InTheText w2 k := by
  obtain ⟨r, _, hr, -⟩ := C09_shown n none none hl.leaves
  obtain ⟨qs, hq, hat⟩ := SmNode.render_at hl.leaves hr
  have tells := tells r hr
  obtain ⟨-, g', hg⟩ := node_map hr
  have hmap := ((toStringWithGenerator_in hin none none).toSourceMap hg).1
  have has := dom_sub_has (U := U) w.strs
  have hv := StrTable.values_get (t := w2.strs) (ids := r.map.sources) fun i hi =>
    (StrTable.Has.mono grown (has.S i (hmap.sources i hi))).1
  have hn' := StrTable.values_get (t := w2.strs) (ids := r.map.names) fun i hi =>
    (StrTable.Has.mono grown (has.N i (hmap.names i hi))).1
  rw [mapPoints, points_rename, points_renameName] at hq
  cases hp : points (idTable r.map.sources.length) (idTable r.map.names.length) r.map.mappings with
  | none => rw [hp] at hq; cases hq
  | some ps =>
    rw [hp] at hq
    have hq : qs = (ps.map (renameName r.map.names)).map (renamePoint r.map.sources) := by simpa using hq.symm
    refine ⟨r.source, r.map.sources.map w2.strs.name, r.map.mappings, ps, ?_, ?_, ?_,
      .inl ⟨r.map.names.map w2.strs.name, ?_, by rw [List.length_map, List.length_map]; exact hp⟩, ?_⟩
    · obtain ⟨e, k1, k2⟩ := tells .source
      exact Tells.reads k1 k2 rfl
    · obtain ⟨e, k1, k2⟩ := tells .sources
      exact Tells.reads k1 k2 ⟨_, hv, rfl⟩
    · obtain ⟨e, k1, k2⟩ := tells .mappings
      exact Tells.reads k1 k2 rfl
    · obtain ⟨e, k1, k2⟩ := tells .names
      refine Tells.reads k1 k2 ?_
      simp only [Displays, if_true]
      exact ⟨_, hn', rfl⟩
    · intro pt hpt
      exact hat (renamePoint r.map.sources (renameName r.map.names pt))
        (by rw [hq]; exact List.mem_map_of_mem (List.mem_map_of_mem hpt))

theorem inTheText_later {t : StrTable JVal} {n : SmNode} {v v2 : NWorld} {k : Nat} {more : List NOp}
    (kept : NodeKept U t n) (ht : v.base.strs = t)
    (hk : v.base.maps[k]? = some (Emitted.new ⟨(n.toStringWithGenerator none none).1, none,
      some (n.toStringWithGenerator none none).2⟩ true)) (e2 : v.runFrom more = .ok v2)
    (hg : ∀ op, .js op ∈ more → ¬ op.gives k) (hset : ∀ a, .js (.set k a) ∉ more) :
    SegmentsIn InTheText v2.base k := by
  subst ht
  have grown : ∃ x, v2.base.strs.array = v.base.strs.array ++ x := by
    obtain ⟨e', -, he⟩ := (show Lasting (fun t (_ : Emitted) => ∃ x, t.array = v.base.strs.array ++ x) from
      ⟨fun ⟨r, hr⟩ ⟨x, hx⟩ => ⟨x ++ r, by rw [hr, hx, List.append_assoc]⟩, fun h _ => h⟩).runNodes
        hk ⟨[], by simp⟩ hg hset e2
    exact he
  exact inTheText_of_tells kept.within kept.lined grown fun r hr f =>
    (Tells.lasting true _ _ f).runNodes hk (node_tells hr f _) hg hset e2

/-- The pair handed out by `toStringWithSourceMap()` of a node. -/
theorem C85_nodes (ops more : List NOp) (w w1 w2 : NWorld) (i k : Nat)
    (r : NWorld.run ops = .ok w) (hs : ∀ op ∈ ops, Spec.NOp.Sized op)
    (e : (NOp.render i).run w = .ok (.pair k, w1)) (e2 : w1.runFrom more = .ok w2)
    (hg : ∀ op, .js op ∈ more → ¬ op.gives k) (hset : ∀ a, .js (.set k a) ∉ more) :
    SegmentsIn InTheText w2.base k := by
  have F := NFits.runFrom (U := fun f => ops.flatMap (NOp.supply f)) (given := fun _ => none) NFits.empty
    (fun op ho f v hv => List.mem_flatMap.2 ⟨op, ho, hv⟩) hs allAlone_none r
  simp only [NOp.run] at e
  split at e
  · cases e
  · cases e
  · rename_i n hn
    cases e
    have hk := F.kept n (List.mem_of_getElem? hn)
    refine inTheText_later hk ?_ ?_ e2 hg hset
    · rfl
    · exact List.getElem?_concat_length

/-- The pair handed out by `sourceAndMap()` of an object, or by `map()`; with columns. -/
theorem C85_columns (ops more : List NOp) (w w2 : NWorld) (b : World) (j k : Nat) (m : Bool)
    (r : NWorld.run ops = .ok w) (hs : ∀ op ∈ ops, Spec.NOp.Sized op)
    (e : (JOp.sourceAndMap j true m).run w.base = .ok (.pair k, b))
    (e2 : ({ w with base := b } : NWorld).runFrom more = .ok w2)
    (hg : ∀ op, .js op ∈ more → ¬ op.gives k) (hset : ∀ a, .js (.set k a) ∉ more) :
    SegmentsIn InTheText w2.base k := by
  have F := NFits.runFrom (U := fun f => ops.flatMap (NOp.supply f)) (given := fun _ => none) NFits.empty
    (fun op ho f v hv => List.mem_flatMap.2 ⟨op, ho, hv⟩) hs allAlone_none r
  obtain ⟨v1, v2, e3, e4, rfl⟩ := (C59_object w j k m b).1 e
  have F1 := F.run (op := .node j true m) (given := fun _ => none) (fun f v hv => by simp [NOp.supply] at hv)
    trivial (fun g hg => by cases hg) e3
  simp only [NOp.run] at e4
  split at e4
  · cases e4
  · cases e4
  · rename_i n hn
    cases e4
    have hk := F1.kept n (List.mem_of_getElem? hn)
    refine inTheText_later hk ?_ ?_ e2 hg hset
    · rfl
    · exact List.getElem?_concat_length

/-! ## Maps without columns -/

theorem furtherLines_at (src : Int) (step : Nat) : ∀ (t : List Char) (p : Nat × Nat) (n : Nat),
    ∀ q ∈ furtherLines src step p.1 n t, ∃ i, i < t.length ∧ posFromB p (t.take i) = (q.line, q.col)
  | [], _, _, q, h => by cases h
  | c :: t, p, n, q, h => by
    have up : ∀ {p' : Nat × Nat}, p' = advanceB p c → (∃ i, i < t.length ∧ posFromB p' (t.take i) = (q.line, q.col)) →
        ∃ i, i < (c :: t).length ∧ posFromB p ((c :: t).take i) = (q.line, q.col) := by
      rintro p' rfl ⟨i, h1, h2⟩
      exact ⟨i + 1, by simpa using h1, h2⟩
    rw [furtherLines] at h
    split at h
    · rename_i hc
      have hp : (p.1 + 1, 0) = advanceB p c := by rw [advanceB, if_pos hc]
      split at h
      · cases h
      · rename_i ht
        refine up hp ?_
        rcases List.mem_cons.1 h with rfl | h
        · exact ⟨0, List.length_pos_iff.2 ht, rfl⟩
        · exact furtherLines_at src step t (p.1 + 1, 0) _ q h
    · rename_i hc
      have hp : (p.1, p.2 + c.utf8Size) = advanceB p c := by rw [advanceB, if_neg hc]
      exact up hp (furtherLines_at src step t (p.1, p.2 + c.utf8Size) _ q h)

theorem lastLine_at : ∀ (t : List Char) (p : Nat × Nat), (p.2 = 0 ∨ '\n' ∈ t) → t ≠ [] →
    t.getLast? ≠ some '\n' → ∃ i, i < t.length ∧ posFromB p (t.take i) = ((posFromB p t).1, 0)
  | [], _, _, h, _ => absurd rfl h
  | c :: t, p, h0, _, hl => by
    by_cases hn : '\n' ∈ c :: t
    · have ht : t ≠ [] := by
        rintro rfl
        simp only [List.mem_singleton] at hn
        subst hn
        simp at hl
      have hl' : t.getLast? ≠ some '\n' := by
        rwa [List.getLast?_cons_of_ne_nil ht] at hl
      have : (advanceB p c).2 = 0 ∨ '\n' ∈ t := by
        rcases List.mem_cons.1 hn with h | h
        · exact .inl (by rw [advanceB, if_pos h.symm])
        · exact .inr h
      obtain ⟨i, h1, h2⟩ := lastLine_at t (advanceB p c) this ht hl'
      exact ⟨i + 1, by simpa using h1, h2⟩
    · refine ⟨0, by simp, ?_⟩
      have h0 : p.2 = 0 := h0.resolve_right hn
      have : ∀ (s : List Char) (p : Nat × Nat), '\n' ∉ s → (posFromB p s).1 = p.1 := by
        intro s
        induction s with
        | nil => intro p _; rfl
        | cons d s ih =>
          intro p hd
          rw [posFromB, List.foldl_cons]
          refine (ih _ (fun h => hd (List.mem_cons_of_mem _ h))).trans ?_
          rw [advanceB, if_neg (fun h => hd (by simp [h]))]
      rw [this _ _ hn]
      exact Prod.ext rfl h0

theorem piece_at (x : Piece) (p : Nat × Nat) : ∀ q ∈ x.points p,
    ∃ i, i < x.text.length ∧ posFromB p (x.text.take i) = (q.line, q.col) := by
  have mapped : ∀ (src : Int) (step n : Nat) (t : List Char), ∀ q ∈ mappedLines src step n p t,
      ∃ i, i < t.length ∧ posFromB p (t.take i) = (q.line, q.col) := by
    intro src step n t q h
    unfold mappedLines at h
    split at h
    · cases h
    · rename_i ht
      rcases List.mem_cons.1 h with rfl | h
      · exact ⟨0, List.length_pos_iff.2 ht, rfl⟩
      · exact furtherLines_at src step t p n q h
  intro q h
  cases x with
  | plain t =>
    change q ∈ plainLines p t at h
    unfold plainLines at h
    split at h
    · rename_i hc
      rw [List.mem_singleton.1 h]
      exact lastLine_at t p hc.1 hc.2.1 hc.2.2
    · cases h
  | lines t s n => exact mapped _ _ _ _ q h
  | single t s n => exact mapped _ _ _ _ q h

theorem pieces_at : ∀ (xs : List Piece) (p : Nat × Nat), ∀ q ∈ piecesPoints p xs,
    ∃ i, i < (piecesText xs).length ∧ posFromB p ((piecesText xs).take i) = (q.line, q.col)
  | [], _, q, h => by cases h
  | x :: xs, p, q, h => by
    have ht : piecesText (x :: xs) = x.text ++ piecesText xs := rfl
    rw [ht, List.length_append]
    rcases List.mem_append.1 h with h | h
    · obtain ⟨i, h1, h2⟩ := piece_at x p q h
      exact ⟨i, by omega, by rw [List.take_append_of_le_length (by omega)]; exact h2⟩
    · obtain ⟨i, h1, h2⟩ := pieces_at xs _ q h
      refine ⟨x.text.length + i, by omega, ?_⟩
      rw [List.take_length_add_append, posFromB_append]
      exact h2

theorem inTheText_of_fit {ops more : List JOp} {w w1 w2 : World} {j k : Nat} {m : Bool}
    (r : World.run ops = .ok w) (hf : ∀ o ∈ w.log, o.LineOk)
    (e : (JOp.sourceAndMap j false m).run w = .ok (.pair k, w1)) (e2 : w1.runFrom more = .ok w2)
    (hg : ∀ op ∈ more, ¬ op.gives k) (hset : ∀ a, .set k a ∉ more) : SegmentsIn AtByte w2 k := by
  obtain ⟨hl, -⟩ := World.run_log r
  have W : w.Within (supplied ops) := by
    have := World.run_within ops
    rw [r] at this
    exact this
  simp only [JOp.run] at e
  unfold World.emit at e
  split at e
  · cases e
  rename_i o ho'
  split at e
  · cases e
  simp only [Bool.false_eq_true, if_false, Except.bind_ok_iff] at e
  obtain ⟨⟨a, w3⟩, h1, h2⟩ := e
  dsimp only at h2
  split at h2
  · rename_i sl
    have hw3 : w3.strs = w.strs := by
      simp only [World.call] at h1
      split at h1
      · cases h1
      · cases h1; rfl
    have hn : ∃ h', apiListMap w.heap o.ptr false m = .ok (sl, h') := by
      simp only [World.call, Op.run] at h1
      cases hn : apiListMap w.heap o.ptr false m with
      | error e => rw [hn] at h1; cases h1
      | ok p => rw [hn] at h1; simp only [Except.map] at h1; cases h1; exact ⟨_, rfl⟩
    obtain ⟨h', hn⟩ := hn
    obtain ⟨-, q, hq, htext, hp, -⟩ := objects_list_points none hf hl hn
    have hqe : q = slmToStringWithSourceMap sl none := by
      rw [apiSourceAndMap, if_neg (by simp), hn] at hq
      cases hq; rfl
    subst hqe
    have hin := (slmToStringWithSourceMap_in (hListMap_in _ _ _ _ _ _ _ _ W.heap hn).1 (.inl rfl) none)
    cases h2
    have grown : ∃ x, w2.strs.array = w.strs.array ++ x := by
      obtain ⟨e', -, he⟩ := (show Lasting (fun t (_ : Emitted) => ∃ x, t.array = w.strs.array ++ x) from
        ⟨fun ⟨r, hr⟩ ⟨x, hx⟩ => ⟨x ++ r, by rw [hr, hx, List.append_assoc]⟩, fun h _ => h⟩).runFrom
          List.getElem?_concat_length ⟨[], by simp [hw3]⟩ (fun ⟨op, h, h'⟩ => absurd h' (hg op h))
          (fun a h => absurd h (hset a)) e2
      exact he
    have tells := fun f => (Tells.lasting false (slmToStringWithSourceMap sl none).source
        (slmToStringWithSourceMap sl none).map f).runFrom List.getElem?_concat_length
        (Tells.new ⟨_, rfl⟩) (fun ⟨op, h, h'⟩ => absurd h' (hg op h))
          (fun a h => absurd h (hset a)) e2
    generalize hS : (slmToStringWithSourceMap sl none).source = S at *
    generalize hM : (slmToStringWithSourceMap sl none).map = M at *
    have has := dom_sub_has (U := supplied ops) w.strs
    have hv := StrTable.values_get (t := w2.strs) (ids := M.sources) fun i hi =>
      (StrTable.Has.mono grown (has.S i (hin.sources i hi))).1
    have hnames : M.names = [] := by rw [← hM]; simp [slmToStringWithSourceMap]
    rw [mapPoints, points_rename, hnames] at hp
    cases hx : points (idTable M.sources.length) [] M.mappings with
    | none => rw [hx] at hp; cases hp
    | some ps =>
      rw [hx] at hp
      have hp : ps.map (renamePoint M.sources) = piecesPoints (1, 0) (sl.map LNode.piece) := by simpa using hp
      refine ⟨S, M.sources.map w2.strs.name, M.mappings, ps, ?_, ?_, ?_,
        .inr ⟨?_, by rw [List.length_map]; exact hx⟩, ?_⟩
      · obtain ⟨e, k1, k2⟩ := tells .source
        exact Tells.reads k1 k2 rfl
      · obtain ⟨e, k1, k2⟩ := tells .sources
        exact Tells.reads k1 k2 ⟨_, hv, rfl⟩
      · obtain ⟨e, k1, k2⟩ := tells .mappings
        exact Tells.reads k1 k2 rfl
      · obtain ⟨e, k1, k2⟩ := tells .names
        exact Tells.reads k1 k2 (by simp [Displays])
      · intro pt hpt
        have := pieces_at (sl.map LNode.piece) (1, 0) (renamePoint M.sources pt)
          (by rw [← hp]; exact List.mem_map_of_mem hpt)
        rw [← htext] at this
        exact this
  · cases h2

theorem posFromB_ascii : ∀ (t : List Char) (p : Nat × Nat), (∀ c ∈ t, c.utf8Size = 1) → posFromB p t = posFrom p t
  | [], _, _ => rfl
  | c :: t, p, h => by
    have h1 : advanceB p c = advance p c := by rw [advanceB, advance, h c (by simp)]
    rw [posFromB, posFrom, List.foldl_cons, List.foldl_cons, h1]
    exact posFromB_ascii t _ fun d hd => h d (by simp [hd])

theorem Spec.SegmentsIn.ascii {w : World} {k : Nat} {t : List Char} (h : SegmentsIn AtByte w k)
    (ht : Reads w k .source (.text t)) (ha : ∀ c ∈ t, c.utf8Size = 1) : SegmentsIn AtChar w k := by
  obtain ⟨t', l, s, ps, h1, h2, h3, h4, h5⟩ := h
  cases reads_unique ht h1
  refine ⟨t, l, s, ps, h1, h2, h3, h4, fun pt hpt => ?_⟩
  obtain ⟨i, h6, h7⟩ := h5 pt hpt
  refine ⟨i, h6, ?_⟩
  rw [← h7, posAfter, posFromB_ascii _ _ fun c hc => ha c (List.mem_of_mem_take hc)]

/-- The pair handed out by `sourceAndMap({columns: false})` of an object, columns counted in bytes; every segment is at
a character. -/
theorem C85_lines_bytes (ops more : List JOp) (w w1 w2 : World) (j k : Nat) (m : Bool)
    (r : World.run ops = .ok w) (hm : ∀ op ∈ ops, Spec.JOp.LineMaps op)
    (e : (JOp.sourceAndMap j false m).run w = .ok (.pair k, w1)) (e2 : w1.runFrom more = .ok w2)
    (hg : ∀ op ∈ more, ¬ op.gives k) (hset : ∀ a, .set k a ∉ more) : SegmentsIn AtByte w2 k := by
  obtain ⟨-, ho⟩ := World.run_log r
  refine inTheText_of_fit r (fun o h => ?_) e e2 hg hset
  obtain ⟨j, hj, hoj⟩ := ho o h
  exact .of_fit (JOp.LineMaps.fit hm hj hoj)

/-- The pair handed out by `sourceAndMap({columns: false})` of an object, where the text is ASCII. Otherwise false
(`C85_lines_not_general`). -/
theorem C85_lines_partial (ops more : List JOp) (w w1 w2 : World) (j k : Nat) (m : Bool) (t : List Char)
    (r : World.run ops = .ok w) (hm : ∀ op ∈ ops, Spec.JOp.LineMaps op)
    (e : (JOp.sourceAndMap j false m).run w = .ok (.pair k, w1)) (e2 : w1.runFrom more = .ok w2)
    (hg : ∀ op ∈ more, ¬ op.gives k) (hset : ∀ a, .set k a ∉ more)
    (ht : Reads w2 k .source (.text t)) (ha : ∀ c ∈ t, c.utf8Size = 1) : SegmentsIn AtChar w2 k :=
  (C85_lines_bytes ops more w w1 w2 j k m r hm e e2 hg hset).ascii ht ha

/-- The same where emitted maps are given back. -/
theorem C85_lines_given_partial (ops more made : List JOp) (w w1 w2 : World) (j k : Nat) (m : Bool) (t : List Char)
    (r : World.run ops = .ok w) (hf : ∀ op ∈ ops, Spec.JOp.FewLines op) (hn : NamesFit ops)
    (hsim : ∀ op ∈ ops, Spec.JOp.Simple op) (hm : MadeFrom World.empty ops made)
    (hl : ∀ op ∈ made, Spec.JOp.LineMaps op)
    (e : (JOp.sourceAndMap j false m).run w = .ok (.pair k, w1)) (e2 : w1.runFrom more = .ok w2)
    (hg : ∀ op ∈ more, ¬ op.gives k) (hset : ∀ a, .set k a ∉ more)
    (ht : Reads w2 k .source (.text t)) (ha : ∀ c ∈ t, c.utf8Size = 1) : SegmentsIn AtChar w2 k := by
  refine (inTheText_of_fit r ?_ e e2 hg hset).ascii ht ha
  exact World.runFrom_given_lines (U := supplied ops) (w := World.empty) World.empty_within World.empty_lined
    (fun e he => by simp [World.empty] at he) (fun o ho => by simp [World.empty] at ho) hf
    (fun op ho f v hv => List.mem_flatMap.2 ⟨op, ho, hv⟩) (namesOk_of_fit hn) hsim hl hm r

/-! ## Texts that are not ASCII -/

instance (t : List Char) (l c : Nat) : Decidable (InTheText t l c) :=
  decidable_of_iff ((List.range (t.length + 1)).any (fun i => posAfter (t.take i) == (l, c)) = true) (by
    simp [InTheText, Nat.lt_succ_iff])

/-- Two characters of two bytes each in front of a file. -/
def c85Wide : List JOp := [.newOriginal "x\ny".toList "x.js".toList, .newConcat [.str "éé".toList, .obj 0]]

set_option synthInstance.maxSize 1000 in
/-- Without ASCII the claim is false: `x` is at column 2, its line has three characters, and the segment is at
column 4. -/
theorem C85_lines_not_general : (∀ op ∈ c85Wide, Spec.JOp.LineMaps op) ∧
    ∃ w w1, World.run c85Wide = .ok w ∧ (JOp.sourceAndMap 1 false true).run w = .ok (.pair 0, w1) ∧
      ¬ SegmentsIn InTheText w1 0 := by
  refine ⟨by simp [c85Wide, Spec.JOp.LineMaps], ?_⟩
  have key : ((World.run c85Wide).toOption.bind fun w =>
      ((JOp.sourceAndMap 1 false true).run w).toOption.map fun x => (x.1,
        [JField.source, .sources, .names, .mappings].map fun f => ((JOp.get 0 f).run x.2).toOption.map Prod.fst)) =
      some (.pair 0, [some (.field (.text "ééx\ny".toList)), some (.field (.list [some "x.js".toList])),
        some (.field .undefined), some (.field (.text "A,IAAA;AACA".toList))]) := by decide +kernel
  have tok : ∀ {ε α : Type} (x : α), (Except.ok x : Except ε α).toOption = some x := fun _ => rfl
  cases h1 : World.run c85Wide with
  | error e => rw [h1] at key; cases key
  | ok w =>
    rw [h1] at key
    rw [tok, Option.bind_some] at key
    cases h2 : (JOp.sourceAndMap 1 false true).run w with
    | error e => rw [h2] at key; cases key
    | ok x =>
      obtain ⟨a, w1⟩ := x
      rw [h2, tok] at key
      simp only [Option.map_some, List.map_cons, List.map_nil, Option.some.injEq, Prod.mk.injEq,
        List.cons.injEq, and_true] at key
      obtain ⟨rfl, k0, k1, k2, k3⟩ := key
      have back : ∀ {f : JField} {v : JFieldVal}, ((JOp.get 0 f).run w1).toOption.map Prod.fst =
          some (.field v) → Reads w1 0 f v := by
        intro f v h
        cases h3 : (JOp.get 0 f).run w1 with
        | error e => rw [h3] at h; cases h
        | ok y =>
          rw [h3] at h
          obtain ⟨b, w4⟩ := y
          simp only [tok, Option.map_some, Option.some.injEq] at h
          subst h
          exact ⟨_, h3⟩
      refine ⟨w, w1, rfl, h2, ?_⟩
      rintro ⟨t, l, s, ps, r1, r2, r3, r4, r5⟩
      cases reads_unique r1 (back k0)
      cases reads_unique r2 (back k1)
      cases reads_unique r3 (back k3)
      rcases r4 with ⟨ns, r4, -⟩ | ⟨-, r4⟩
      · cases reads_unique r4 (back k2)
      · have hp : points (idTable 1) [] "A,IAAA;AACA".toList =
            some [⟨1, 0, none⟩, ⟨1, 4, some ⟨0, 1, 0, none⟩⟩, ⟨2, 0, some ⟨0, 2, 0, none⟩⟩] := by decide +kernel
        rw [show points (idTable 1) [] "A,IAAA;AACA".toList = some ps from r4] at hp
        cases hp
        exact absurd (r5 ⟨1, 4, some ⟨0, 1, 0, none⟩⟩ (by simp)) (by decide +kernel)

/-! Non-trivial cases: in `c60Lines` (its hypotheses are shown there) the segments are at characters, as the text is
ASCII; in `c60Program` (shown there) the object is edited. A deletion at the end leaves a segment behind the last
character, so `AtChar` would be false of maps with columns: -/

/-- The program. -/
def c85Cut : List NOp := [.js (.newOriginal "a;b;".toList "x.js".toList), .js (.newReplace (.obj 0)), .js (.replace 1 2 3 [])]

example : ∀ op ∈ c85Cut, Spec.NOp.Sized op := by
  simp only [c85Cut, List.forall_mem_cons, Spec.NOp.Sized, Spec.JOp.FewLines]
  unfold Spec.FewLines
  exact ⟨by decide, trivial, by decide, by simp⟩

set_option synthInstance.maxSize 1000 in
example : ((NWorld.run (c85Cut ++ [.js (.sourceAndMap 1 true true)])).toOption.map fun w =>
    (readField w.base 0 .source, readField w.base 0 .mappings)) =
    some (some (.text "a;".toList), some (.text "AAAA,EAAE".toList)) := by decide +kernel

example : points (idTable 1) [] "AAAA,EAAE".toList = some [⟨1, 0, some ⟨0, 1, 0, none⟩⟩, ⟨1, 2, some ⟨0, 1, 2, none⟩⟩] ∧
    InTheText "a;".toList 1 2 ∧ ¬ AtChar "a;".toList 1 2 := by
  refine ⟨by decide +kernel, by decide +kernel, ?_⟩
  rintro ⟨i, h1, h2⟩
  have h1 : i < 2 := h1
  match i, h1 with
  | 0, _ => cases h2
  | 1, _ => cases h2

end WS
