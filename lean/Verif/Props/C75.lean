import Verif.Props.C63
import Verif.Proofs.Canonical
/-!
# C75: the column map of an object is exactly the smallest one that says what it says

Claim: `sources` and `names` of the pair handed out by `sourceAndMap()` list the files and names of the
characters in the order in which they first occur, each once, and `mappings` is the standard encoding of one
segment for every place where the origin changes (lines begin without one) and no others. So the pair depends
only on what is said of the characters, not on what else the process did.
-/

namespace WS
open Spec

/-! ## Spec -/

/-- The files of a text, in the order of first occurrences. -/
def Spec.filesOf (m : PlacedMarks) : List JVal := firsts [] (m.filterMap fun p => p.2.map Place.file)

/-- The names of a text, in the order of first occurrences. -/
def Spec.namesOf (m : PlacedMarks) : List JVal := firsts [] (m.filterMap fun p => p.2.bind Place.name)

/-- The segments a map of the text needs: one where the origin changes. -/
def Spec.segsOf (m : PlacedMarks) : List Seg :=
  (changes none (1, 0) m).map fun p => ⟨p.1.1, p.1.2, p.2.map fun o =>
    ((filesOf m).idxOf o.file, (o.line - 1 : Nat), o.col, o.name.map fun n => ((namesOf m).idxOf n : Int))⟩

/-- The properties of the pair, as they read, are exactly these. -/
def Spec.ShowsExactly (w : World) (k : Nat) (m : PlacedMarks) : Prop :=
  Reads w k .source (.text (m.map Prod.fst)) ∧ Reads w k .sources (.list (filesOf m)) ∧
  Reads w k .names (.list (namesOf m)) ∧ Reads w k .mappings (.text (encode (segsOf m)))

/-! ## Renaming -/

theorem firsts_map {α β : Type} [DecidableEq α] [DecidableEq β] (f : α → β) : ∀ (l s : List α),
    (∀ a ∈ l ++ s, ∀ b ∈ l ++ s, f a = f b → a = b) → firsts (s.map f) (l.map f) = (firsts s l).map f
  | [], s, _ => rfl
  | a :: l, s, h => by
    rw [List.map_cons, firsts, firsts]
    by_cases ha : a ∈ s
    · rw [if_pos ha, if_pos (List.mem_map_of_mem ha)]
      exact firsts_map f l s fun x hx y hy => h x (by simp at hx ⊢; exact .inr hx) y (by simp at hy ⊢; exact .inr hy)
    · rw [if_neg ha, if_neg]
      · have := firsts_map f l (a :: s) fun x hx y hy => h x (by simp at hx ⊢; rcases hx with h | h | h <;> simp [h]) y
          (by simp at hy ⊢; rcases hy with h | h | h <;> simp [h])
        rw [List.map_cons] at this
        rw [this, List.map_cons]
      · intro hm
        obtain ⟨b, hb, e⟩ := List.mem_map.1 hm
        exact ha (h b (by simp [hb]) a (by simp) e ▸ hb)

theorem idxOf_map {α β : Type} [BEq α] [LawfulBEq α] [BEq β] [LawfulBEq β] (f : α → β) {a : α} : ∀ (l : List α),
    (∀ b ∈ l, f b = f a → b = a) → (l.map f).idxOf (f a) = l.idxOf a
  | [], _ => rfl
  | b :: l, h => by
    rw [List.map_cons, List.idxOf_cons, List.idxOf_cons, idxOf_map f l fun x hx => h x (by simp [hx])]
    rcases Classical.em (b = a) with e | e
    · subst e; simp
    · have : f b ≠ f a := fun x => e (h b (by simp) x)
      rw [beq_false_of_ne e, beq_false_of_ne this]

theorem changes_map {α β : Type} [DecidableEq α] [DecidableEq β] (f : α → β) : ∀ (m : List (Char × Option α))
    (last : Option α) (p : Nat × Nat),
    (∀ a b, (last = some a ∨ ∃ q ∈ m, q.2 = some a) → (last = some b ∨ ∃ q ∈ m, q.2 = some b) → f a = f b → a = b) →
    changes (last.map f) p (m.map fun q => (q.1, q.2.map f)) =
      (changes last p m).map fun q => (q.1, q.2.map f)
  | [], _, _, _ => rfl
  | (c, o) :: m, last, p, h => by
    rw [List.map_cons, changes, changes, List.map_append]
    have e : (o.map f = last.map f) ↔ o = last := by
      constructor
      · intro e
        cases o with
        | none => cases last with
          | none => rfl
          | some b => cases e
        | some a => cases last with
          | none => cases e
          | some b =>
            have := h a b (.inr ⟨(c, some a), by simp, rfl⟩) (.inl rfl) (by simpa using e)
            rw [this]
      · intro e; rw [e]
    have e2 : (if c = '\n' then none else o.map f) = (if c = '\n' then none else o).map f := by split <;> rfl
    have hn : ∀ a, ((if c = '\n' then none else o) = some a ∨ ∃ q ∈ m, q.2 = some a) →
        (last = some a ∨ ∃ q ∈ (c, o) :: m, q.2 = some a) := by
      rintro a (ha | ⟨q, hq, ha⟩)
      · split at ha
        · cases ha
        · exact .inr ⟨(c, o), by simp, ha⟩
      · exact .inr ⟨q, by simp [hq], ha⟩
    rw [e2, changes_map f m _ _ fun a b ha hb => h a b (hn a ha) (hn b hb)]
    congr 1
    by_cases ho : o = last
    · rw [if_pos ho, if_pos (e.2 ho)]; rfl
    · rw [if_neg ho, if_neg (fun x => ho (e.1 x))]; rfl

/-! ## Indices -/

/-- Sources and names have the one index the table has for them. -/
def canonDom (t : StrTable JVal) : Dom := ⟨Canon t fun _ => True, fun _ => True, Canon t fun _ => True⟩

theorem canon_inj {t : StrTable JVal} {i j : Int} (hi : Canon t (fun _ => True) i) (hj : Canon t (fun _ => True) j)
    (e : t.name i = t.name j) : i = j := by
  obtain ⟨i0, v, hv, -, iv⟩ := hi
  obtain ⟨j0, v', hv', -, iv'⟩ := hj
  have e1 : t.name i = v := by
    simp [StrTable.name, StrTable.at, show ¬ i < 0 by omega, hv]
  have e2 : t.name j = v' := by
    simp [StrTable.name, StrTable.at, show ¬ j < 0 by omega, hv']
  rw [e1, e2] at e
  subst e
  rw [iv] at iv'
  have := Option.some.inj iv'
  omega

theorem place_inj {t : StrTable JVal} {a b : Origin}
    (ha : Canon t (fun _ => True) a.source ∧ ∀ x, a.name = some x → Canon t (fun _ => True) x)
    (hb : Canon t (fun _ => True) b.source ∧ ∀ x, b.name = some x → Canon t (fun _ => True) x)
    (e : place t a = place t b) : a = b := by
  obtain ⟨s, l, c, n⟩ := a
  obtain ⟨s', l', c', n'⟩ := b
  simp only [place, Place.mk.injEq] at e
  obtain ⟨e1, rfl, rfl, e2⟩ := e
  have := canon_inj ha.1 hb.1 e1
  dsimp only at this
  subst this
  cases n with
  | none => cases n' with
    | none => rfl
    | some y => cases e2
  | some x => cases n' with
    | none => cases e2
    | some y =>
      have := canon_inj (ha.2 x rfl) (hb.2 y rfl) (by simpa using e2)
      rw [this]

/-- The same for all origins of a marked text. -/
def CanonMarks (t : StrTable JVal) (m : Marked) : Prop :=
  ∀ p ∈ m, ∀ o, p.2 = some o → Canon t (fun _ => True) o.source ∧ ∀ x, o.name = some x → Canon t (fun _ => True) x

theorem SmNode.In.canon {t : StrTable JVal} {n : SmNode} (h : n.In (canonDom t)) : CanonMarks t n.marks := by
  intro p hp o ho
  obtain ⟨l, hl, e⟩ := mem_marked hp
  have := h.leaves l hl o (e.trans ho)
  exact ⟨this.1, fun x hx => this.2 x hx⟩

theorem CanonMarks.files {t : StrTable JVal} {m : Marked} (h : CanonMarks t m) :
    filesOf (placed t m) = (firsts [] (m.filterMap fun p => p.2.map (·.source))).map t.name := by
  have := firsts_map t.name (m.filterMap fun p => p.2.map (·.source)) [] (by
    intro a ha b hb
    simp only [List.append_nil, List.mem_filterMap] at ha hb
    obtain ⟨p, hp, ha⟩ := ha
    obtain ⟨q, hq, hb⟩ := hb
    obtain ⟨o, ho, rfl⟩ := Option.map_eq_some_iff.1 ha
    obtain ⟨o', ho', rfl⟩ := Option.map_eq_some_iff.1 hb
    exact canon_inj (h p hp o ho).1 (h q hq o' ho').1)
  rw [← this, filesOf, placed, List.filterMap_map, List.map_filterMap]
  congr 2
  funext q
  obtain ⟨c, o⟩ := q
  cases o <;> rfl

theorem CanonMarks.names {t : StrTable JVal} {m : Marked} (h : CanonMarks t m) :
    namesOf (placed t m) = (firsts [] (m.filterMap fun p => p.2.bind (·.name))).map t.name := by
  have := firsts_map t.name (m.filterMap fun p => p.2.bind (·.name)) [] (by
    intro a ha b hb
    simp only [List.append_nil, List.mem_filterMap] at ha hb
    obtain ⟨p, hp, ha⟩ := ha
    obtain ⟨q, hq, hb⟩ := hb
    obtain ⟨o, ho, ha⟩ := Option.bind_eq_some_iff.1 ha
    obtain ⟨o', ho', hb⟩ := Option.bind_eq_some_iff.1 hb
    exact canon_inj ((h p hp o ho).2 a ha) ((h q hq o' ho').2 b hb))
  rw [← this, namesOf, placed, List.filterMap_map, List.map_filterMap]
  congr 2
  funext q
  obtain ⟨c, o⟩ := q
  cases o <;> rfl

theorem mem_changes {α : Type} [DecidableEq α] {q : (Nat × Nat) × Option α} {a : α} :
    ∀ {m : List (Char × Option α)} {last : Option α} {p : Nat × Nat}, q ∈ changes last p m → q.2 = some a →
    ∃ x ∈ m, x.2 = some a
  | (c, o) :: m, last, p, h, e => by
    rw [changes, List.mem_append] at h
    rcases h with h | h
    · split at h
      · cases h
      · simp only [List.mem_cons, List.not_mem_nil, or_false] at h
        subst h
        exact ⟨(c, o), by simp, e⟩
    · obtain ⟨x, hx, hxa⟩ := mem_changes h e
      exact ⟨x, by simp [hx], hxa⟩

theorem CanonMarks.segs {t : StrTable JVal} {m : Marked} (h : CanonMarks t m) :
    segsOf (placed t m) = (changes none (1, 0) m).map (changeSeg (firsts [] (m.filterMap fun p => p.2.map (·.source)))
      (firsts [] (m.filterMap fun p => p.2.bind (·.name)))) := by
  have hc := changes_map (place t) m none (1, 0) (by
    rintro a b (ha | ⟨p, hp, ha⟩) (hb | ⟨q, hq, hb⟩)
    · cases ha
    · cases ha
    · cases hb
    · exact place_inj (h p hp a ha) (h q hq b hb))
  have hc : changes none (1, 0) (placed t m) = _ := hc
  rw [segsOf, hc, List.map_map, h.files, h.names]
  refine List.map_congr_left fun q hq => ?_
  obtain ⟨g, o⟩ := q
  cases o with
  | none => rfl
  | some o =>
    obtain ⟨x, hx, hxo⟩ := mem_changes hq rfl
    have k := h x hx o hxo
    simp only [Function.comp, changeSeg, Option.map_some, place, Seg.mk.injEq, Option.some.injEq, Prod.mk.injEq, true_and,
      Option.map_map]
    refine ⟨?_, ?_⟩
    · refine congrArg Int.ofNat (idxOf_map t.name _ fun b hb e => ?_)
      obtain ⟨hb, -⟩ := (mem_firsts _ _).1 hb
      obtain ⟨p, hp, hb⟩ := List.mem_filterMap.1 hb
      obtain ⟨o', ho', rfl⟩ := Option.map_eq_some_iff.1 hb
      exact canon_inj (h p hp o' ho').1 k.1 e
    · cases hn : o.name with
      | none => rfl
      | some y =>
        simp only [Option.map_some, Function.comp, Option.some.injEq]
        refine congrArg Int.ofNat (idxOf_map t.name _ fun b hb e => ?_)
        obtain ⟨hb, -⟩ := (mem_firsts _ _).1 hb
        obtain ⟨p, hp, hb⟩ := List.mem_filterMap.1 hb
        obtain ⟨o', ho', hb⟩ := Option.bind_eq_some_iff.1 hb
        exact canon_inj ((h p hp o' ho').2 b hb) (k.2 y hn) e

/-- A pair that tells what a node without empty strings says shows exactly that. -/
theorem exactly_of_tells {t : StrTable JVal} {w : World} {k : Nat} {n : SmNode} (hin : n.In (hasDom t))
    (hc : CanonMarks t n.marks) (grown : ∃ x, w.strs.array = t.array ++ x)
    (hf : FullLeaves n.leaves) (hok : ∀ l ∈ n.leaves, LeafOk l)
    (tells : ∀ r, n.toStringWithSourceMap none none = .ok r → ∀ f,
      ∃ e, w.maps[k]? = some e ∧ e.Tells true r.source r.map f w.strs) :
    ShowsExactly w k (placed t n.marks) := by
  obtain ⟨r, hr, h1, h2, h3, h4⟩ := n.render_exact none none hf hok
  have tells := tells r hr
  obtain ⟨-, g', hg⟩ := node_map hr
  have hmap := ((toStringWithGenerator_in hin none none).toSourceMap hg).1
  have hs := fun i hi => StrTable.Has.mono grown (hmap.sources i hi)
  have hx := fun i hi => StrTable.Has.mono grown (hmap.names i hi)
  have hv := StrTable.values_get (t := w.strs) (ids := r.map.sources) fun i hi => (hs i hi).1
  have hn := StrTable.values_get (t := w.strs) (ids := r.map.names) fun i hi => (hx i hi).1
  rw [List.map_congr_left fun i hi => (hs i hi).2] at hv
  rw [List.map_congr_left fun i hi => (hx i hi).2] at hn
  refine ⟨?_, ?_, ?_, ?_⟩
  · obtain ⟨e, k1, k2⟩ := tells .source
    refine Tells.reads k1 k2 ?_
    show JFieldVal.text _ = .text _
    have : (placed t n.marks).map Prod.fst = n.marks.map Prod.fst := by simp [placed, Function.comp_def]
    rw [this, SmNode.marks, leavesText_marked, h1]; rfl
  · obtain ⟨e, k1, k2⟩ := tells .sources
    refine Tells.reads k1 k2 ⟨_, hv, ?_⟩
    rw [hc.files, h2]
  · obtain ⟨e, k1, k2⟩ := tells .names
    refine Tells.reads k1 k2 ?_
    simp only [Displays, if_true]
    exact ⟨_, hn, by rw [hc.names, h3]⟩
  · obtain ⟨e, k1, k2⟩ := tells .mappings
    refine Tells.reads k1 k2 ?_
    show JFieldVal.text _ = .text _
    rw [hc.segs, h4, h2, h3]

/-! ## Programs -/

/-- No index is negative. -/
def posDom : Dom := ⟨fun i => 0 ≤ i, fun _ => True, fun _ => True⟩

theorem SmNode.In.both {D E F : Dom} (hS : ∀ i, D.S i → E.S i → F.S i) (hN : ∀ i, D.N i → E.N i → F.N i)
    (hC : ∀ i, D.C i → E.C i → F.C i) : ∀ {n : SmNode}, n.In D → n.In E → n.In F := by
  intro n h
  induction h with
  | str s => exact fun _ => .str s
  | node h1 h2 h3 _ ih =>
    intro h'
    cases h' with
    | node g1 g2 g3 g4 =>
      exact .node (fun x hx => hS x (h1 x hx) (g1 x hx)) (fun x hx => hN x (h2 x hx) (g2 x hx))
        (fun p hp => hC _ (h3 p hp) (g3 p hp)) (fun c hc => ih c hc (g4 c hc))

theorem Heap.In.runFrom {D : Dom} : ∀ {log : List Op} {h h' : Heap}, Heap.In D h → (∀ o ∈ log, o.In D) →
    WS.runFrom h log = .ok h' → Heap.In D h'
  | [], h, h', H, _, e => by cases e; exact H
  | o :: log, h, h', H, hl, e => by
    simp only [WS.runFrom] at e
    split at e
    · cases e
    · rename_i a h1 he
      exact Heap.In.runFrom (Op.run_in H (hl o (by simp)) he).2 (fun x hx => hl x (by simp [hx])) e

theorem World.runFrom_positive {ops : List JOp} {w0 w : World} (H : Heap.In posDom w0.heap) (r : w0.runFrom ops = .ok w)
    (hr : ∀ op ∈ ops, Spec.JOp.Exact op) : Heap.In posDom w.heap := by
  obtain ⟨l, -, hl, hlog⟩ := World.runFrom_log r
  refine Heap.In.runFrom (log := l) H (fun o ho => ?_) hl
  obtain ⟨op, hop, hof⟩ := hlog o ho
  cases o <;> try trivial
  · exact ⟨hof.1, trivial⟩
  · exact ⟨hof.1, trivial⟩
  · rename_i v vi n hd x inner
    obtain ⟨h0, _, m, _, i, rfl, ⟨hi1, hi2⟩, h1⟩ := hof
    obtain ⟨⟨ss, cs, ns, mp, rfl, -⟩, hpl⟩ := hr _ hop
    obtain ⟨g1, d, g2, -, g3⟩ := h1 ss cs ns mp rfl
    refine ⟨trivial, h0, ⟨fun d' e => ?_, fun g e => ?_⟩, fun _ _ => trivial, fun y hy => ?_⟩
    · rw [g2] at e; cases e; exact ⟨g3, fun _ _ => trivial, fun _ _ => trivial⟩
    · rw [g1] at e; cases e
    · rw [hy] at hi1
      cases i with
      | none => cases hi1
      | some i =>
        obtain ⟨ss', cs', ns', mp', rfl, -⟩ := hpl _ rfl
        obtain ⟨ih, d', e1, e2, e3, e4⟩ := hi2 ss' cs' ns' mp' rfl
        rw [hy] at e1; cases e1
        refine ⟨fun d'' e => ?_, fun g e => ?_⟩
        · rw [e3] at e; cases e; exact ⟨e4, fun _ _ => trivial, fun _ _ => trivial⟩
        · rw [e2] at e; cases e

theorem World.run_positive {ops : List JOp} {w : World} (r : World.run ops = .ok w) (hr : ∀ op ∈ ops, Spec.JOp.Exact op) :
    Heap.In posDom w.heap := World.runFrom_positive (w0 := .empty) (fun i o h => by simp [World.empty] at h) r hr

theorem canonDom_of {U : Pool} {t : StrTable JVal} {n : SmNode} (h : n.In (dom U t)) (h' : n.In posDom) :
    n.In (canonDom t) := by
  refine SmNode.In.both (fun i hi h0 => ?_) (fun i hi _ => ?_) (fun _ _ _ => trivial) h h'
  · rcases hi with rfl | ⟨a, v, b, -, c⟩
    · exact absurd (show (0 : Int) ≤ -1 from h0) (by decide)
    · exact ⟨a, v, b, trivial, c⟩
  · obtain ⟨a, v, b, -, c⟩ := hi
    exact ⟨a, v, b, trivial, c⟩

theorem World.emit_exact {U : Pool} {st : List JThing} {made : List JOp} {w w1 w2 : World} {A : AHeap}
    {j k : Nat} {module_ : Bool} (I : w.Inv A st) (L : w.Labels made) (W : w.Within U) (hl : w.Lined)
    (hpos : Heap.In posDom w.heap)
    (hst : ∀ o ∈ w.log, Spec.Op.StableMap o) (hr : ∀ op ∈ made, Spec.JOp.Exact op)
    (hmk : ∀ op ∈ made, Spec.JOp.makes op = true) (hu : Unreplaced st false (.obj j))
    (e : (JOp.sourceAndMap j true module_).run w = .ok (.pair k, w1)) (e2 : World.Lasts k w1 w2) :
    ∃ m, JPlaces st made (.obj j) m ∧ ShowsExactly w2 k m := by
  simp only [JOp.run] at e
  unfold World.emit at e
  split at e
  · cases e
  rename_i o ho
  split at e
  · cases e
  simp only [if_true, Except.bind_ok_iff] at e
  obtain ⟨⟨a, w3⟩, h1, h2⟩ := e
  dsimp only at h2
  split at h2
  · rename_i n
    have hw := W.call (op := .node o.ptr true module_) trivial
    have hln := hl.call (op := .node o.ptr true module_) trivial
    rw [h1] at hw hln
    obtain ⟨g1, g2, g3, g4⟩ := hw
    obtain ⟨l1, l2, -⟩ := hln
    dsimp only at g1 g2 g3 g4 l1 l2
    obtain ⟨h', hn⟩ : ∃ h', apiNode w.heap o.ptr true module_ = .ok (n, h') := by
      simp only [World.call, Op.run] at h1
      cases hn : apiNode w.heap o.ptr true module_ with
      | error e => rw [hn] at h1; cases h1
      | ok p => rw [hn] at h1; simp only [Except.map] at h1; cases h1; exact ⟨_, rfl⟩
    have hp : n.In posDom := (Op.run_in (op := .node o.ptr true module_) (a := .node n) (h' := h') hpos trivial
      (by simp only [Op.run]; rw [hn]; rfl)).1
    obtain ⟨t, u, ht⟩ := (api_node_iff (stable_of_ops I.log hst) I.abs _ _ _ _).1 ⟨h', hn⟩
    have hit : Tree.itemNode true module_ t = .ok n := by
      cases t <;> first | exact ht | cases ht
    obtain ⟨k1, k2, k3⟩ := JPlaces.of_unfolds I L hr hmk u (.obj j) (tr_obj ho) hu.mono _ hit
    cases h2
    refine ⟨_, k1, ?_⟩
    have hin : n.In (hasDom w.strs) := SmNode.In.mono (dom_sub_has _) g2
    have grown : ∃ x, w2.strs.array = w.strs.array ++ x := by
      have := e2.array List.getElem?_concat_length
      rwa [← g3]
    refine exactly_of_tells hin (canonDom_of g2 hp).canon grown (k3 hu) (fun l hm o ho =>
      ⟨fun e => (by rw [k2 l hm e] at ho; cases ho), SmNode.Lined.leaves l2 l hm o ho⟩) fun r hr f => ?_
    exact e2 _ (Tells.lasting true _ _ f) _ List.getElem?_concat_length (node_tells hr f _)
  · cases h2

/-- C75: the maps given are well-formed ordinary objects, no `ReplaceSource` is in the object, and no empty
string was put into it. The object says one thing of its characters, and the pair is exactly the one for that;
it is read at any later time, provided it was not given to a `SourceMapSource` or assigned to. Missing: empty
strings (false, `C75_not_empty`), `ReplaceSource`s (false, `C70_not_columns`), and `sourcesContent`. -/
theorem C75_partial (ops more : List JOp) (w w1 w2 : World) (j k : Nat) (module_ : Bool)
    (r : World.run ops = .ok w) (hp : ∀ op ∈ ops, op.Proper) (hf : ∀ op ∈ ops, Spec.JOp.FewLines op)
    (hr : ∀ op ∈ ops, Spec.JOp.Exact op) (hu : Unreplaced (jthings ops) false (.obj j))
    (e : (JOp.sourceAndMap j true module_).run w = .ok (.pair k, w1)) (e2 : w1.runFrom more = .ok w2)
    (hg : ∀ op ∈ more, ¬ op.gives k) (hset : ∀ a, .set k a ∉ more) :
    ∃ m, (∀ m', JPlaces (jthings ops) (jmade ops) (.obj j) m' ↔ m' = m) ∧ ShowsExactly w2 k m := by
  obtain ⟨A, I⟩ := World.run_inv hp r
  have L := World.run_labels hp r
  have W := World.run_within ops
  rw [r] at W
  have W : w.Within (supplied ops) := W
  have hl := World.run_lined hf r
  obtain ⟨-, hlog⟩ := World.run_log r
  have hst : ∀ o ∈ w.log, Spec.Op.StableMap o := by
    intro o ho
    obtain ⟨op, hop, hof⟩ := hlog o ho
    cases o <;> try trivial
    obtain ⟨-, n, m, o', i, rfl, -, h1⟩ := hof
    obtain ⟨⟨ss, cs, ns, mp, rfl, -⟩, -⟩ := hr _ hop
    obtain ⟨-, d, hd, -⟩ := h1 ss cs ns mp rfl
    exact .inl (by rw [hd]; rfl)
  obtain ⟨m, h1, h2⟩ := World.emit_exact I L W hl (World.run_positive r hr) hst
    (fun op h => hr op (List.mem_filter.1 h).1) (fun op h => (List.mem_filter.1 h).2) hu e (.of_run e2 hg hset)
  have T : Together (jmade ops) (jthings ops) := by
    exact together ops (made := []) (st := []) ⟨rfl, fun j op x h => by simp at h⟩
  exact ⟨m, fun m' => ⟨fun h => JPlaces.unique T h1 hu h, fun h => h ▸ h1⟩, h2⟩

/-- What two programs that say the same of an object read from the pairs is the same, whatever else they did. -/
theorem C75_same_partial (ops ops' more more' : List JOp) (w w1 w2 w' w1' w2' : World) (j k j' k' : Nat)
    (module_ module' : Bool) (m : PlacedMarks)
    (r : World.run ops = .ok w) (hp : ∀ op ∈ ops, op.Proper) (hf : ∀ op ∈ ops, Spec.JOp.FewLines op)
    (hr : ∀ op ∈ ops, Spec.JOp.Exact op) (hu : Unreplaced (jthings ops) false (.obj j))
    (hm : JPlaces (jthings ops) (jmade ops) (.obj j) m)
    (e : (JOp.sourceAndMap j true module_).run w = .ok (.pair k, w1)) (e2 : w1.runFrom more = .ok w2)
    (hg : ∀ op ∈ more, ¬ op.gives k) (hset : ∀ a, .set k a ∉ more)
    (r' : World.run ops' = .ok w') (hp' : ∀ op ∈ ops', op.Proper) (hf' : ∀ op ∈ ops', Spec.JOp.FewLines op)
    (hr' : ∀ op ∈ ops', Spec.JOp.Exact op) (hu' : Unreplaced (jthings ops') false (.obj j'))
    (hm' : JPlaces (jthings ops') (jmade ops') (.obj j') m)
    (e' : (JOp.sourceAndMap j' true module').run w' = .ok (.pair k', w1')) (e2' : w1'.runFrom more' = .ok w2')
    (hg' : ∀ op ∈ more', ¬ op.gives k') (hset' : ∀ a, .set k' a ∉ more') (f : JField)
    (hfield : f = .source ∨ f = .sources ∨ f = .names ∨ f = .mappings) (v : JFieldVal) :
    Reads w2 k f v ↔ Reads w2' k' f v := by
  obtain ⟨m1, u1, h1, h2, h3, h4⟩ := C75_partial ops more w w1 w2 j k module_ r hp hf hr hu e e2 hg hset
  obtain ⟨m2, u2, g1, g2, g3, g4⟩ := C75_partial ops' more' w' w1' w2' j' k' module' r' hp' hf' hr' hu' e' e2' hg' hset'
  have c1 := (u1 m).1 hm
  have c2 := (u2 m).1 hm'
  subst c1
  subst c2
  rcases hfield with rfl | rfl | rfl | rfl
  · exact ⟨fun h => reads_unique h h1 ▸ g1, fun h => reads_unique h g1 ▸ h1⟩
  · exact ⟨fun h => reads_unique h h2 ▸ g2, fun h => reads_unique h g2 ▸ h2⟩
  · exact ⟨fun h => reads_unique h h3 ▸ g3, fun h => reads_unique h g3 ▸ h3⟩
  · exact ⟨fun h => reads_unique h h4 ▸ g4, fun h => reads_unique h g4 ▸ h4⟩

/-! Non-trivial case: the program of C63, whose hypotheses are shown there. -/

example : filesOf c63Marks = ["a.js", "c.js", "h.js", "g.js"].map (some ∘ String.toList) ∧
    namesOf c63Marks = ["n", "k"].map (some ∘ String.toList) ∧
    encode (segsOf c63Marks) = ";AAAA,IAAE;AACF;;ACDA;AACA;ADAEA,GECFA;ACAAC;ADDA".toList := by decide +kernel
example : (changes none (1, 0) c63Marks).length = 9 := by decide +kernel

/-- An empty string between two texts: nothing changes there for any character, yet the map has segments for it. -/
def c75Empty : List JOp :=
  [.newOriginal "a".toList "f".toList, .newConcat [.obj 0, .str [], .obj 0]]

/-- What it says of its last object. -/
def c75Marks : PlacedMarks := "aa".toList.map fun c => (c, some ⟨some "f".toList, 1, 0, none⟩)

theorem c75_places : JPlaces (jthings c75Empty) (jmade c75Empty) (.obj 1) c75Marks := by
  refine .joined (items := [.obj 0, .str [], .obj 0]) (ms := [[('a', some ⟨some "f".toList, 1, 0, none⟩)], [],
    [('a', some ⟨some "f".toList, 1, 0, none⟩)]]) (by decide +kernel) rfl ?_
  have h : JPlaces (jthings c75Empty) (jmade c75Empty) (.obj 0) [('a', some ⟨some "f".toList, 1, 0, none⟩)] :=
    .original (v := "a".toList) (n := "f".toList) (by rfl)
  intro i x m h1 h2
  match i with
  | 0 => cases h1; cases h2; exact h
  | 1 => cases h1; cases h2; exact .str []
  | 2 => cases h1; cases h2; exact h
  | i + 3 => cases h1

/-- With an empty string the map is not the smallest: two of its three segments are for places where nothing
changes. -/
theorem C75_not_empty : ∃ w w1, World.run c75Empty = .ok w ∧
    (JOp.sourceAndMap 1 true true).run w = .ok (.pair 0, w1) ∧
    JPlaces (jthings c75Empty) (jmade c75Empty) (.obj 1) c75Marks ∧
    Reads w1 0 .mappings (.text "AAAA,C,AAAA".toList) ∧ encode (segsOf c75Marks) = "AAAA".toList := by
  refine ⟨_, _, by rfl, by rfl, c75_places, ⟨_, by rfl⟩, by decide +kernel⟩

end WS
