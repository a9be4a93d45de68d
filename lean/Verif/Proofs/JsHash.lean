import Verif.Proofs.JsRun
/-! # What is hashed -/

namespace WS
open Spec

/-- The streams of several sources, one after the other. -/
def JHashes (st : List JThing) (items : List JSrc) (l : List Str) : Prop :=
  ∃ ls : List (List Str), ls.length = items.length ∧
    (∀ (k : Nat) (i : JSrc) (l : List Str), items[k]? = some i → ls[k]? = some l → JHash st i l) ∧
    ls.flatten = l

theorem JHashes.nil (st : List JThing) : JHashes st [] [] := ⟨[], rfl, by simp, rfl⟩

theorem JHashes.cons {st : List JThing} {i : JSrc} {is : List JSrc} {l l' : List Str}
    (h : JHash st i l) (h' : JHashes st is l') : JHashes st (i :: is) (l ++ l') := by
  obtain ⟨ls, h1, h2, rfl⟩ := h'
  refine ⟨l :: ls, by simp [h1], ?_, rfl⟩
  intro k i' l' hi hl
  cases k with
  | zero => cases hi; cases hl; exact h
  | succ k => exact h2 k i' l' hi hl

theorem JHashes.append {st : List JThing} {is js : List JSrc} {l l' : List Str}
    (h : JHashes st is l) (h' : JHashes st js l') : JHashes st (is ++ js) (l ++ l') := by
  obtain ⟨ls, h1, h2, rfl⟩ := h
  obtain ⟨ms, k1, k2, rfl⟩ := h'
  refine ⟨ls ++ ms, by simp [h1, k1], ?_, by simp⟩
  intro k i l hi hl
  rw [List.getElem?_append] at hi hl
  rw [h1] at hl
  split at hi
  · rename_i hk; rw [if_pos hk] at hl; exact h2 k i l hi hl
  · rename_i hk; rw [if_neg hk] at hl; exact k2 _ i l hi hl

theorem JHashes.uncons {st : List JThing} {i : JSrc} {is : List JSrc} {l : List Str}
    (h : JHashes st (i :: is) l) : ∃ a b, l = a ++ b ∧ JHash st i a ∧ JHashes st is b := by
  obtain ⟨ls, h1, h2, rfl⟩ := h
  cases ls with
  | nil => simp at h1
  | cons a ls =>
    refine ⟨a, ls.flatten, rfl, h2 0 i a rfl rfl, ls, by simpa using h1, ?_, rfl⟩
    intro k i' l' hi hl
    exact h2 (k + 1) i' l' hi hl

/-- A flattened item has the stream of the item. -/
theorem _root_.WS.Spec.JHash.flat {st : List JThing} {i : JSrc} {l : List Str} (h : JHash st i l) :
    JHashes st (flat st i) l := by
  have one : JHashes st [i] l := by simpa using JHashes.cons h (JHashes.nil st)
  cases i with
  | str s => exact one
  | obj k =>
    simp only [Spec.flat]
    split
    · rename_i items hk
      cases h with
      | leaf hx => rw [hk] at hx; cases hx
      | prefixed hx _ => rw [hk] at hx; cases hx
      | replaced hx _ => rw [hk] at hx; cases hx
      | @joined _ _ ls hx hl hh => rw [hk] at hx; cases hx; exact ⟨ls, hl, hh, rfl⟩
    · exact one

theorem JHashes.flat {st : List JThing} {is : List JSrc} {l : List Str} (h : JHashes st is l) :
    JHashes st (is.flatMap (flat st)) l := by
  induction is generalizing l with
  | nil => exact h
  | cons i is ih =>
    obtain ⟨a, b, rfl, ha, hb⟩ := h.uncons
    rw [List.flatMap_cons]
    exact ha.flat.append (ih hb)

/-! ## The children of a ConcatSource and its items -/

/-- The items of every ConcatSource are those its children contribute now; the children are objects
in `frozen`. -/
structure Children (objs : List JObj) (st : List JThing) (frozen : List JSrc) : Prop where
  items : ∀ (l p : Nat) (cs : List JSrc), objs[l]? = some ⟨p, .concat cs⟩ →
    st[l]? = some (.joined (cs.flatMap (flat st)))
  frozen : ∀ (l p : Nat) (cs : List JSrc), objs[l]? = some ⟨p, .concat cs⟩ → ∀ k : Nat,
    JSrc.obj k ∈ cs → k < objs.length ∧ JSrc.obj k ∈ frozen
  len : objs.length = st.length

theorem Children.mono {objs : List JObj} {st : List JThing} {F F' : List JSrc}
    (C : Children objs st F) (h : ∀ x ∈ F, x ∈ F') : Children objs st F' :=
  ⟨C.items, fun l p cs h1 k hk => ⟨(C.frozen l p cs h1 k hk).1, h _ (C.frozen l p cs h1 k hk).2⟩, C.len⟩

theorem flat_congr {st st' : List JThing} {cs : List JSrc}
    (h : ∀ k : Nat, JSrc.obj k ∈ cs → st'[k]? = st[k]?) :
    cs.flatMap (flat st') = cs.flatMap (flat st) := by
  induction cs with
  | nil => rfl
  | cons c cs ih =>
    rw [List.flatMap_cons, List.flatMap_cons, ih (fun k hk => h k (List.mem_cons_of_mem _ hk))]
    congr 1
    cases c with
    | str s => rfl
    | obj k => simp only [flat, h k (by simp)]

/-- A new object; a ConcatSource is empty at first. -/
theorem Children.push {objs : List JObj} {st : List JThing} {F : List JSrc} (C : Children objs st F)
    (o : JObj) (x : JThing) (h : ∀ cs, o.kind = .concat cs → cs = [] ∧ x = .joined []) :
    Children (objs ++ [o]) (st ++ [x]) F := by
  refine ⟨?_, ?_, by simp [C.len]⟩
  · intro l p cs hl
    rw [getElem?_snoc] at hl
    split at hl
    · rename_i hln
      cases hl
      obtain ⟨rfl, rfl⟩ := h cs rfl
      rw [hln, C.len]; simp
    · rename_i hln
      have := C.items l p cs hl
      have hf : cs.flatMap (flat (st ++ [x])) = cs.flatMap (flat st) := by
        apply flat_congr
        intro k hk
        have := (C.frozen l p cs hl k hk).1
        rw [C.len] at this
        exact List.getElem?_append_left this
      rw [getElem?_append_some this, hf]
  · intro l p cs hl k hk
    rw [getElem?_snoc] at hl
    split at hl
    · cases hl
      obtain ⟨rfl, -⟩ := h cs rfl
      cases hk
    · obtain ⟨h1, h2⟩ := C.frozen l p cs hl k hk
      exact ⟨by simp; omega, h2⟩

/-- Changing an object that is not a ConcatSource. -/
theorem Children.ask {objs : List JObj} {st : List JThing} {F : List JSrc} (C : Children objs st F)
    (j : Nat) (r : JRequest) : Children objs (askTo st j r) F := by
  simp only [askTo]
  split
  · rename_i c rs hj
    have other : ∀ k : Nat, (st.set j (.replaced c (rs ++ [r])))[k]? = st[k]? ∨ k = j := by
      intro k
      by_cases h : j = k
      · exact .inr h.symm
      · left; rw [List.getElem?_set_ne h]
    have flat' : ∀ i : JSrc, flat (st.set j (.replaced c (rs ++ [r]))) i = flat st i := by
      intro i
      cases i with
      | str s => rfl
      | obj k =>
        rcases other k with h | rfl
        · simp only [flat, h]
        · have hlt := (List.getElem?_eq_some_iff.1 hj).1
          simp only [flat, hj]
          rw [List.getElem?_set_self hlt]
    refine ⟨?_, C.frozen, by simp [C.len]⟩
    intro l p cs hl
    have h1 := C.items l p cs hl
    rcases other l with h | rfl
    · rw [h, h1]
      congr 2
      exact (funext flat') ▸ rfl
    · rw [hj] at h1; cases h1
  · exact C

/-- Adding to an object that was not added anywhere. -/
theorem Children.addItem {w w' : World} {A : AHeap} {st : List JThing} {F : List JSrc}
    (C : Children w.objs st F) (I : w.Inv A st) {j : Nat} {item : JSrc}
    (hj : ∀ (l p : Nat) (cs : List JSrc), w.objs[l]? = some ⟨p, .concat cs⟩ → JSrc.obj j ∉ cs)
    (e : w.addItem j item = .ok w') :
    Children w'.objs (addTo st j item) (F ++ [item]) ∧
      (∀ (l p : Nat) (cs : List JSrc), w'.objs[l]? = some ⟨p, .concat cs⟩ → JSrc.obj j ∉ cs) := by
  have e0 := e
  simp only [World.addItem] at e
  split at e
  · rename_i ptr cs ho
    simp only [Except.bind_ok_iff, Except.map_ok_iff] at e
    obtain ⟨s, hs, ⟨ans, w1⟩, h1, rfl⟩ := e
    have hx := C.items j ptr cs ho
    have hlt := (List.getElem?_eq_some_iff.1 hx).1
    have hne : item ≠ .obj j := by
      rintro rfl
      simp only [World.src, ho] at hs
      cases hs
      obtain ⟨h, hr, -⟩ := World.call_ok h1
      obtain ⟨A', k1, -⟩ := Op.run_abs I.abs _ hr
      obtain ⟨x, hx', sim⟩ := I.sim.get' ho
      cases sim with
      | leaf hk _ _ => cases hk
      | joined hA hi => dsimp only at hA; simp only [Op.step, aAdd, hA] at k1; simp at k1
    have hst : addTo st j item = st.set j (.joined (cs.flatMap (flat st) ++ flat st item)) := by
      rw [addTo, hx]
    have same : ∀ k : Nat, k ≠ j → (addTo st j item)[k]? = st[k]? := by
      intro k hk
      rw [hst, List.getElem?_set_ne (Ne.symm hk)]
    have back : ∀ (l p : Nat) (ds : List JSrc),
        (w.objs.set j ⟨ptr, .concat (cs ++ [item])⟩)[l]? = some ⟨p, .concat ds⟩ →
        (l = j ∧ ds = cs ++ [item]) ∨ (l ≠ j ∧ w.objs[l]? = some ⟨p, .concat ds⟩) := by
      intro l p ds hl
      by_cases h : l = j
      · subst h
        rw [List.getElem?_set_self (List.getElem?_eq_some_iff.1 ho).1] at hl
        cases hl; exact .inl ⟨rfl, rfl⟩
      · rw [List.getElem?_set_ne (Ne.symm h)] at hl
        exact .inr ⟨h, hl⟩
    have hmem : ∀ (l p : Nat) (ds : List JSrc),
        (w.objs.set j ⟨ptr, .concat (cs ++ [item])⟩)[l]? = some ⟨p, .concat ds⟩ → JSrc.obj j ∉ ds := by
      intro l p ds hl
      rcases back l p ds hl with ⟨rfl, rfl⟩ | ⟨h, hl⟩
      · intro hm
        rw [List.mem_append, List.mem_singleton] at hm
        rcases hm with hm | hm
        · exact hj _ _ _ ho hm
        · exact hne hm.symm
      · exact hj _ _ _ hl
    refine ⟨⟨?_, ?_, ?_⟩, hmem⟩
    · intro l p ds hl
      have hflat : ds.flatMap (flat (addTo st j item)) = ds.flatMap (flat st) := by
        apply flat_congr
        intro k hk
        apply same
        rintro rfl
        exact hmem l p ds hl hk
      rw [hflat]
      rcases back l p ds hl with ⟨rfl, rfl⟩ | ⟨h, hl⟩
      · rw [hst, List.getElem?_set_self hlt, List.flatMap_append]; simp
      · rw [same l h]
        exact C.items l p ds hl
    · intro l p ds hl k hk
      simp only [List.length_set]
      rcases back l p ds hl with ⟨rfl, rfl⟩ | ⟨h, hl⟩
      · rw [List.mem_append, List.mem_singleton] at hk
        rcases hk with hk | hk
        · have := C.frozen _ _ _ ho k hk
          exact ⟨this.1, by simp [this.2]⟩
        · subst hk
          refine ⟨?_, by simp⟩
          simp only [World.src] at hs
          split at hs
          · rename_i o hk; exact (List.getElem?_eq_some_iff.1 hk).1
          · cases hs
      · have := C.frozen _ _ _ hl k hk
        exact ⟨this.1, by simp [this.2]⟩
    · simp [hst, C.len]
  · cases e

theorem Children.addItems {items : List JSrc} {w w' : World} {A : AHeap} {st : List JThing}
    {F : List JSrc} (C : Children w.objs st F) (I : w.Inv A st) {j : Nat}
    (hj : ∀ (l p : Nat) (cs : List JSrc), w.objs[l]? = some ⟨p, .concat cs⟩ → JSrc.obj j ∉ cs)
    (e : w.addItems j items = .ok w') :
    Children w'.objs (items.foldl (fun s i => addTo s j i) st) (F ++ items) := by
  induction items generalizing w A st F with
  | nil => cases e; simpa using C
  | cons i items ih =>
    simp only [World.addItems, Except.bind_ok_iff] at e
    obtain ⟨w1, h1, h2⟩ := e
    obtain ⟨A1, I1⟩ := I.addItem h1
    obtain ⟨C1, hj1⟩ := C.addItem I hj h1
    have := ih C1 I1 hj1 h2
    simpa using this

/-! ## Statements that leave the objects alone -/

theorem World.call_objs {w w' : World} {op : Op} {a : Answer} (e : w.call op = .ok (a, w')) :
    w'.objs = w.objs := by
  obtain ⟨h, -, rfl⟩ := World.call_ok e
  rfl

theorem World.readSource_objs {w w' : World} {j : Nat} {s : Str}
    (e : w.readSource j = .ok (s, w')) : w'.objs = w.objs := by
  simp only [World.readSource] at e
  split at e
  · cases e
  · split at e
    · cases e; rfl
    · simp only [Except.bind_ok_iff] at e
      obtain ⟨⟨a, w1⟩, h1, h2⟩ := e
      have := World.call_objs h1
      split at h2
      · cases h2; exact this
      · cases h2

theorem World.readSize_objs {w w' : World} {j n : Nat}
    (e : w.readSize j = .ok (n, w')) : w'.objs = w.objs := by
  simp only [World.readSize] at e
  split at e
  · cases e
  · split at e
    · cases e; rfl
    · simp only [Except.bind_ok_iff] at e
      obtain ⟨⟨a, w1⟩, h1, h2⟩ := e
      have := World.call_objs h1
      split at h2
      · cases h2; exact this
      · cases h2

theorem World.emit_objs {w w' : World} {j : Nat} {c m : Bool} {a : JAnswer}
    (e : w.emit j c m = .ok (a, w')) : w'.objs = w.objs := by
  simp only [World.emit] at e
  split at e
  · cases e
  · split at e
    · cases e; rfl
    · split at e
      · simp only [Except.bind_ok_iff] at e
        obtain ⟨⟨a, w1⟩, h1, h2⟩ := e
        have := World.call_objs h1
        split at h2
        · cases h2; exact this
        · cases h2
      · simp only [Except.bind_ok_iff] at e
        obtain ⟨⟨a, w1⟩, h1, h2⟩ := e
        have := World.call_objs h1
        split at h2
        · cases h2; exact this
        · cases h2

theorem World.create_objs {w w' : World} {op : Op} {k : JKind} (e : w.create op k = .ok w') :
    ∃ p, w'.objs = w.objs ++ [⟨p, k⟩] := by
  simp only [World.create, Except.map_ok_iff] at e
  obtain ⟨p, -, rfl⟩ := e
  exact ⟨_, rfl⟩

/-! ## The stream -/

theorem hash_step {st : List JThing} {A : AHeap} {F : List JSrc} (n : Nat) :
    (∀ (w w' : World) j l, w.Inv A st → Children w.objs st F → World.hashObj n w j = .ok (l, w') →
      w'.Inv A st ∧ w'.objs = w.objs ∧ JHash st (.obj j) l) ∧
    (∀ (cs : List JSrc) (w w' : World) l, w.Inv A st → Children w.objs st F →
      World.hashEach (World.hashObj n) w cs = .ok (l, w') →
      w'.Inv A st ∧ w'.objs = w.objs ∧ JHashes st cs l) := by
  have items : ∀ n : Nat,
      (∀ (w w' : World) j l, w.Inv A st → Children w.objs st F → World.hashObj n w j = .ok (l, w') →
        w'.Inv A st ∧ w'.objs = w.objs ∧ JHash st (.obj j) l) →
      ∀ (cs : List JSrc) (w w' : World) l, w.Inv A st → Children w.objs st F →
        World.hashEach (World.hashObj n) w cs = .ok (l, w') → w'.Inv A st ∧ w'.objs = w.objs ∧ JHashes st cs l := by
    intro n ih cs
    induction cs with
    | nil =>
      intro w w' l I C e; rw [World.hashEach] at e; cases e; exact ⟨I, rfl, .nil st⟩
    | cons c cs ihc =>
      intro w w' l I C e
      cases c with
      | str s =>
        rw [World.hashEach] at e
        simp only [Except.map_ok_iff] at e
        obtain ⟨p, h1, h2⟩ := e
        cases h2
        obtain ⟨a, b, c⟩ := ihc _ _ _ I C h1
        exact ⟨a, b, JHashes.cons (.str s) c⟩
      | obj j =>
        rw [World.hashEach] at e
        simp only [Except.bind_ok_iff, Except.map_ok_iff] at e
        obtain ⟨p, h1, q, h2, h3⟩ := e
        cases h3
        obtain ⟨a, b, c⟩ := ih _ _ _ _ I C h1
        obtain ⟨a', b', c'⟩ := ihc _ _ _ a (b ▸ C) h2
        exact ⟨a', b'.trans b, JHashes.cons c c'⟩
  induction n with
  | zero =>
    have : ∀ (w w' : World) j l, w.Inv A st → Children w.objs st F →
        World.hashObj 0 w j = .ok (l, w') → w'.Inv A st ∧ w'.objs = w.objs ∧ JHash st (.obj j) l := by
      intro w w' j l I C e; rw [World.hashObj] at e; cases e
    exact ⟨this, items 0 this⟩
  | succ n ih =>
    have : ∀ (w w' : World) j l, w.Inv A st → Children w.objs st F →
        World.hashObj (n + 1) w j = .ok (l, w') →
        w'.Inv A st ∧ w'.objs = w.objs ∧ JHash st (.obj j) l := by
      intro w w' j l I C e
      rw [World.hashObj] at e
      split at e
      · cases e
      · rename_i o ho
        obtain ⟨x, hx, sim⟩ := I.sim.get' ho
        have leafCase : ∀ v, o.kind.value = some v → JHash st (.obj j) (v :: o.kind.extra) := by
          intro v hv
          generalize o.kind = k at sim hv
          cases sim with
          | leaf hk _ _ => rw [hk] at hv; cases hv; exact .leaf hx
          | prefixed => cases hv
          | replaced => cases hv
          | joined => cases hv
        split at e
        · rename_i v hk; cases e; have := leafCase v (by rw [hk]; rfl); rw [hk] at this; exact ⟨I, rfl, this⟩
        · rename_i v hk; cases e; have := leafCase v (by rw [hk]; rfl); rw [hk] at this; exact ⟨I, rfl, this⟩
        · rename_i v _ hk; cases e; have := leafCase v (by rw [hk]; rfl); rw [hk] at this; exact ⟨I, rfl, this⟩
        · rename_i v _ hk; cases e; have := leafCase v (by rw [hk]; rfl); rw [hk] at this; exact ⟨I, rfl, this⟩
        · rename_i pre c hk
          simp only [Except.map_ok_iff] at e
          obtain ⟨p, h1, h2⟩ := e
          cases h2
          obtain ⟨a, b, d⟩ := ih.2 _ _ _ _ I C h1
          refine ⟨a, b, ?_⟩
          rw [hk] at sim
          cases sim with
          | leaf hv _ _ => cases hv
          | prefixed hA hc =>
            obtain ⟨u, v, huv, hu, hv⟩ := d.uncons
            obtain ⟨ls, hl, -, rfl⟩ := hv
            simp at hl; subst hl
            simp at huv
            rw [huv]
            exact .prefixed hx hu
        · rename_i c hk
          simp only [Except.map_ok_iff] at e
          obtain ⟨p, h1, h2⟩ := e
          cases h2
          refine ⟨I.readSource h1, World.readSource_objs h1, ?_⟩
          rw [hk] at sim
          cases sim with
          | leaf hv _ _ => cases hv
          | replaced hA hc => exact .replaced hx ((I.source_iff j _).1 ⟨_, h1⟩)
        · rename_i cs hk
          obtain ⟨a, b, d⟩ := ih.2 _ _ _ _ I C e
          refine ⟨a, b, ?_⟩
          obtain ⟨p, k⟩ := o
          dsimp only at hk
          subst hk
          have hi := C.items j p cs ho
          obtain ⟨ls, h1, h2, rfl⟩ := d.flat
          exact .joined hi h1 h2
    exact ⟨this, items _ this⟩

/-! ## Programs -/

theorem JOp.run_children {w w' : World} {A : AHeap} {st : List JThing} {F : List JSrc}
    (I : w.Inv A st) (C : Children w.objs st F) {op : JOp} (hp : op.Proper)
    (hs : ∀ j item, op = .add j item → JSrc.obj j ∉ F)
    {a : JAnswer} (e : op.run w = .ok (a, w')) :
    Children w'.objs (jstep st op) (F ++ op.items) := by
  have plain : ∀ {k : JKind} {x : JThing} {w0 : World}, w.Same w0 →
      (∀ cs, k ≠ .concat cs) → (∃ p, w'.objs = w0.objs ++ [⟨p, k⟩]) →
      Children w'.objs (st ++ [x]) (F ++ []) := by
    intro k x w0 s hk ⟨p, h⟩
    rw [h, s.objs]
    simpa using C.push ⟨p, k⟩ x (fun cs hc => absurd hc (hk cs))
  have same : w'.objs = w.objs → Children w'.objs st (F ++ []) := by
    intro h; rw [h]; simpa using C
  cases op with
  | newRaw v =>
    simp only [JOp.run, Except.map_ok_iff] at e
    obtain ⟨w1, h, h2⟩ := e; cases h2
    refine plain (k := .raw v) (.rfl' w) (by simp) ?_
    simp only [World.newRaw] at h
    split at h
    · cases h; exact ⟨_, rfl⟩
    · simp only [Except.map_ok_iff] at h
      obtain ⟨w2, h3, rfl⟩ := h
      obtain ⟨p, hp⟩ := World.create_objs h3
      exact ⟨p, hp⟩
  | newOriginal v n =>
    simp only [JOp.run, Except.map_ok_iff] at e
    obtain ⟨w1, h, h2⟩ := e; cases h2
    refine plain (k := .original v)
      ((w.internNew_same (some v)).trans ((w.internNew (some v)).2.intern_same (some n))) (by simp) ?_
    simp only [World.newOriginal] at h
    split at h
    · split at h
      · cases h; exact ⟨_, rfl⟩
      · simp only [Except.map_ok_iff] at h
        obtain ⟨w2, h3, rfl⟩ := h
        obtain ⟨p, hp⟩ := World.create_objs h3
        exact ⟨p, hp⟩
    · exact World.create_objs h
  | newL2l v n o =>
    simp only [JOp.run, Except.map_ok_iff] at e
    obtain ⟨w1, h, h2⟩ := e; cases h2
    exact plain ((w.intern_same (some n)).trans ((w.intern (some n)).2.internNew_same (some o)))
      (by simp) (World.create_objs h)
  | newSms v n m o i =>
    simp only [JOp.run, Except.map_ok_iff] at e
    obtain ⟨w1, h, h2⟩ := e; cases h2
    simp only [World.newSms, Except.bind_ok_iff] at h
    obtain ⟨m, h1, i, h2, h3⟩ := h
    have s1 := (w.internNew_same (some v)).trans ((w.internNew (some v)).2.intern_same (some n))
    have s2 := s1.trans (World.give_same h1)
    have s3 : w.Same i.2 := by
      refine World.Same.trans ?_ (World.giveInner_same h2)
      cases truthy o with
      | none => exact s2
      | some s => exact s2.trans (World.internNew_same _ _)
    exact plain s3 (by simp) (World.create_objs h3)
  | newPrefix p c =>
    simp only [JOp.run, Except.map_ok_iff, Except.bind_ok_iff] at e
    obtain ⟨s, hs, _, h, h2⟩ := e; cases h2
    exact plain (.rfl' w) (by simp) (World.create_objs h)
  | newReplace c =>
    simp only [JOp.run, Except.map_ok_iff, Except.bind_ok_iff] at e
    obtain ⟨s, hs, _, h, h2⟩ := e; cases h2
    exact plain (.rfl' w) (by simp) (World.create_objs h)
  | newConcat items =>
    simp only [JOp.run, Except.map_ok_iff, Except.bind_ok_iff] at e
    obtain ⟨w1, h1, w2, h2, h3⟩ := e; cases h3
    have J := I.create (a := .concat []) (x := .joined []) h1 (by intro A' h; cases h; rfl)
      (.joined (is := []) (by simp) rfl)
    obtain ⟨p, hp⟩ := World.create_objs h1
    have C1 : Children w1.objs (st ++ [.joined []]) F := by
      rw [hp]
      refine C.push _ _ ?_
      intro cs hcs; cases hcs; exact ⟨rfl, rfl⟩
    have hj : ∀ (l p : Nat) (cs : List JSrc), w1.objs[l]? = some ⟨p, .concat cs⟩ →
        JSrc.obj w.objs.length ∉ cs := by
      intro l q cs hl hm
      rw [hp, getElem?_snoc] at hl
      split at hl
      · cases hl; cases hm
      · have := (C.frozen _ _ _ hl _ hm).1
        omega
    have := C1.addItems J hj h2
    rw [I.length] at this
    exact this
  | add j item =>
    simp only [JOp.run, Except.map_ok_iff] at e
    obtain ⟨_, h, h2⟩ := e; cases h2
    refine (C.addItem I ?_ h).1
    intro l p cs hl hm
    exact hs j item rfl (C.frozen l p cs hl j hm).2
  | replace j a b t =>
    simp only [JOp.run] at e
    split at e
    · simp only [Except.map_ok_iff] at e
      obtain ⟨p, h1, h2⟩ := e; cases h2
      rw [World.call_objs h1]
      simpa [JOp.items, jstep] using C.ask j ⟨a, b, t⟩
    · cases e
  | insert j a t =>
    simp only [JOp.run] at e
    split at e
    · simp only [Except.map_ok_iff] at e
      obtain ⟨p, h1, h2⟩ := e; cases h2
      rw [World.call_objs h1]
      simpa [JOp.items, jstep] using C.ask j ⟨a, a - 1, t⟩
    · cases e
  | source j =>
    simp only [JOp.run, Except.map_ok_iff] at e
    obtain ⟨_, h, h2⟩ := e; cases h2; exact same (World.readSource_objs h)
  | size j =>
    simp only [JOp.run, Except.map_ok_iff] at e
    obtain ⟨_, h, h2⟩ := e; cases h2; exact same (World.readSize_objs h)
  | sourceAndMap j c m => exact same (World.emit_objs e)
  | hash j =>
    simp only [JOp.run, Except.map_ok_iff] at e
    obtain ⟨_, h, h2⟩ := e; cases h2
    exact same ((hash_step _).1 _ _ _ _ I C h).2.1
  | get k f =>
    simp only [JOp.run] at e
    split at e
    · cases e
    · simp only [Except.map_ok_iff] at e
      obtain ⟨p, h1, h2⟩ := e; cases h2
      exact same rfl
  | set k f =>
    simp only [JOp.run] at e
    split at e
    · cases e
    · cases e
      exact same rfl

theorem World.runFrom_children {ops : List JOp} {w w' : World} {A : AHeap} {st : List JThing}
    {F : List JSrc} (I : w.Inv A st) (C : Children w.objs st F) (hp : ∀ op ∈ ops, op.Proper)
    (hs : Settled ops) (hF : ∀ op ∈ ops, ∀ j item, op = .add j item → JSrc.obj j ∉ F)
    (e : w.runFrom ops = .ok w') :
    ∃ A', w'.Inv A' (ops.foldl jstep st) ∧ ∃ F', Children w'.objs (ops.foldl jstep st) F' := by
  induction ops generalizing w A st F with
  | nil => cases e; exact ⟨A, I, F, C⟩
  | cons op ops ih =>
    simp only [World.runFrom, Except.bind_ok_iff] at e
    obtain ⟨⟨a, w1⟩, h1, h2⟩ := e
    obtain ⟨A1, I1⟩ := JOp.run_inv I (hp op (by simp)) h1
    have C1 := JOp.run_children I C (hp op (by simp)) (hF op (by simp)) h1
    rw [Settled, List.pairwise_cons] at hs
    refine ih I1 C1 (fun o ho => hp o (by simp [ho])) hs.2 ?_ h2
    intro o ho j item e
    rw [List.mem_append]
    rintro (h | h)
    · exact hF o (by simp [ho]) j item e h
    · exact hs.1 o ho j item e h

end WS

namespace WS
open Spec

/-! ## Texts and streams are unique -/

theorem _root_.WS.Spec.JText.unique {st : List JThing} {src : JSrc} {s : Str} (h : JText st src s) :
    ∀ t, JText st src t → s = t := by
  induction h with
  | str s => intro t ht; cases ht; rfl
  | leaf hx =>
    intro t ht
    cases ht with
    | leaf hy => rw [hx] at hy; cases hy; rfl
    | prefixed hy _ => rw [hx] at hy; cases hy
    | replaced hy _ _ => rw [hx] at hy; cases hy
    | joined hy _ _ => rw [hx] at hy; cases hy
  | prefixed hx _ ih =>
    intro t ht
    cases ht with
    | leaf hy => rw [hx] at hy; cases hy
    | prefixed hy hc => rw [hx] at hy; cases hy; rw [ih _ hc]
    | replaced hy _ _ => rw [hx] at hy; cases hy
    | joined hy _ _ => rw [hx] at hy; cases hy
  | replaced hx _ hr ih =>
    intro t ht
    cases ht with
    | leaf hy => rw [hx] at hy; cases hy
    | prefixed hy _ => rw [hx] at hy; cases hy
    | replaced hy hc hr' =>
      rw [hx] at hy; cases hy
      rw [ih _ hc, ← hr.sorted, ← hr'.sorted]
    | joined hy _ _ => rw [hx] at hy; cases hy
  | @joined j items ss hx hl _ ih =>
    intro t ht
    cases ht with
    | leaf hy => rw [hx] at hy; cases hy
    | prefixed hy _ => rw [hx] at hy; cases hy
    | replaced hy _ _ => rw [hx] at hy; cases hy
    | @joined _ _ ss' hy hl' hh =>
      rw [hx] at hy; cases hy
      congr 1
      apply List.ext_getElem (by omega)
      intro k h1 h2
      have e1 : items[k]? = some (items[k]'(by omega)) := List.getElem?_eq_getElem (by omega)
      exact ih k _ _ e1 (List.getElem?_eq_getElem h1) _ (hh k _ _ e1 (List.getElem?_eq_getElem h2))

theorem _root_.WS.Spec.JHash.unique {st : List JThing} {src : JSrc} {s : List Str}
    (h : JHash st src s) : ∀ t, JHash st src t → s = t := by
  induction h with
  | str s => intro t ht; cases ht; rfl
  | leaf hx =>
    intro t ht
    cases ht with
    | leaf hy => rw [hx] at hy; cases hy; rfl
    | prefixed hy _ => rw [hx] at hy; cases hy
    | replaced hy _ => rw [hx] at hy; cases hy
    | joined hy _ _ => rw [hx] at hy; cases hy
  | prefixed hx _ ih =>
    intro t ht
    cases ht with
    | leaf hy => rw [hx] at hy; cases hy
    | prefixed hy hc => rw [hx] at hy; cases hy; rw [ih _ hc]
    | replaced hy _ => rw [hx] at hy; cases hy
    | joined hy _ _ => rw [hx] at hy; cases hy
  | replaced hx hs =>
    intro t ht
    cases ht with
    | leaf hy => rw [hx] at hy; cases hy
    | prefixed hy _ => rw [hx] at hy; cases hy
    | replaced hy hs' => rw [hs.unique _ hs']
    | joined hy _ _ => rw [hx] at hy; cases hy
  | @joined j items ss hx hl _ ih =>
    intro t ht
    cases ht with
    | leaf hy => rw [hx] at hy; cases hy
    | prefixed hy _ => rw [hx] at hy; cases hy
    | replaced hy _ => rw [hx] at hy; cases hy
    | @joined _ _ ss' hy hl' hh =>
      rw [hx] at hy; cases hy
      congr 1
      apply List.ext_getElem (by omega)
      intro k h1 h2
      have e1 : items[k]? = some (items[k]'(by omega)) := List.getElem?_eq_getElem (by omega)
      exact ih k _ _ e1 (List.getElem?_eq_getElem h1) _ (hh k _ _ e1 (List.getElem?_eq_getElem h2))

/-- Objects that hash their text only. -/
theorem _root_.WS.Spec.JHash.text {st : List JThing}
    (hst : ∀ x ∈ st, (∀ p c, x ≠ .prefixed p c) ∧ ∀ v ex, x = .leaf v ex → ex = []) {src : JSrc}
    {l : List Str} (h : JHash st src l) : JText st src l.flatten := by
  induction h with
  | str s => simpa using JText.str s
  | leaf hx =>
    have := (hst _ (List.mem_of_getElem? hx)).2 _ _ rfl
    subst this
    simpa using JText.leaf hx
  | prefixed hx _ ih => exact absurd rfl ((hst _ (List.mem_of_getElem? hx)).1 _ _)
  | replaced hx hs => simpa using hs
  | @joined j items ls hx hl _ ih =>
    have := JText.joined (ss := ls.map List.flatten) hx (by simpa using hl) ?_
    · rwa [← List.flatten_flatten] at this
    · intro k i s hi hs
      rw [List.getElem?_map] at hs
      cases hk : ls[k]? with
      | none => rw [hk] at hs; cases hs
      | some l => rw [hk] at hs; cases hs; exact ih k i l hi hk

end WS
