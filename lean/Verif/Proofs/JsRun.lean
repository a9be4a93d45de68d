import Verif.Proofs.JsWorld
import Verif.Proofs.Describe
/-! # Every JavaScript program is a history of wasm calls -/

namespace WS
open Spec

/-! ## Statements that only touch the string table and the emitted maps -/

/-- The two states differ in the string table, which has grown, and in the emitted maps. -/
structure World.Same (w w' : World) : Prop where
  heap : w'.heap = w.heap
  log : w'.log = w.log
  raws : w'.raws = w.raws
  boots : w'.boots = w.boots
  objs : w'.objs = w.objs
  strs : ∃ r, w'.strs.array = w.strs.array ++ r
  index : ∀ v i, w.strs.indexOf v = some i → w'.strs.indexOf v = some i

theorem World.Same.rfl' (w : World) : w.Same w := ⟨rfl, rfl, rfl, rfl, rfl, ⟨[], by simp⟩, fun _ _ h => h⟩

/-- The table has grown, and every value still has its index. -/
structure StrTable.Ext (t t' : StrTable JVal) : Prop where
  array : ∃ r, t'.array = t.array ++ r
  index : ∀ v i, t.indexOf v = some i → t'.indexOf v = some i

theorem StrTable.Ext.rfl' (t : StrTable JVal) : t.Ext t := ⟨⟨[], by simp⟩, fun _ _ h => h⟩

theorem StrTable.Ext.of_eq {t t' : StrTable JVal} (h : t' = t) : t.Ext t' := h ▸ .rfl' _

theorem World.Same.ext {w w' : World} (h : w.Same w') : w.strs.Ext w'.strs := ⟨h.strs, h.index⟩

theorem World.Same.trans {a b c : World} (h : a.Same b) (h' : b.Same c) : a.Same c := by
  obtain ⟨r, hr⟩ := h.strs
  obtain ⟨r', hr'⟩ := h'.strs
  exact ⟨h'.heap.trans h.heap, h'.log.trans h.log, h'.raws.trans h.raws, h'.boots.trans h.boots,
    h'.objs.trans h.objs, ⟨r ++ r', by rw [hr', hr, List.append_assoc]⟩,
    fun v i e => h'.index v i (h.index v i e)⟩

theorem StrTable.add_grows {α : Type} [DecidableEq α] (t : StrTable α) (v : α) :
    ∃ r, (t.add v).2.array = t.array ++ r := by
  unfold StrTable.add
  split
  · exact ⟨[], by simp⟩
  · exact ⟨[v], rfl⟩

theorem StrTable.add_index {α : Type} [DecidableEq α] (t : StrTable α) (s v : α) {i : Nat}
    (h : t.indexOf v = some i) : (t.add s).2.indexOf v = some i := by
  unfold StrTable.add
  split
  · exact h
  · rename_i hs
    simp only [StrTable.indexOf, List.lookup_cons] at h hs ⊢
    split
    · rename_i he
      rw [eq_of_beq he, hs] at h
      cases h
    · exact h

theorem World.intern_same (w : World) (v : JVal) : w.Same (w.intern v).2 :=
  ⟨rfl, rfl, rfl, rfl, rfl, StrTable.add_grows _ _, fun _ _ h => StrTable.add_index _ _ _ h⟩

theorem World.internNew_same (w : World) (v : JVal) : w.Same (w.internNew v).2 :=
  ⟨rfl, rfl, rfl, rfl, rfl, ⟨[v], rfl⟩, fun _ _ h => h⟩

theorem World.internAll_same (w : World) (vs : List JVal) : w.Same (w.internAll vs).2 := by
  induction vs generalizing w with
  | nil => exact .rfl' w
  | cons v vs ih => exact (w.intern_same v).trans (ih _)

theorem World.internAllNew_same (w : World) (vs : List JVal) : w.Same (w.internAllNew vs).2 := by
  induction vs generalizing w with
  | nil => exact .rfl' w
  | cons v vs ih => exact (w.internNew_same v).trans (ih _)

theorem World.giveData_same (w : World) (ss cs ns : List JVal) (m : Str) :
    w.Same (w.giveData ss cs ns m).2 :=
  (w.internAll_same ss).trans (((w.internAll ss).2.internAllNew_same cs).trans
    (World.internAll_same _ ns))

theorem World.maps_same (w : World) (ms : List Emitted) : w.Same { w with maps := ms } :=
  ⟨rfl, rfl, rfl, rfl, rfl, ⟨[], by simp⟩, fun _ _ h => h⟩

theorem World.give_same {w w' : World} {a : MapArg} {h : SmHolder} (e : w.give a = .ok (h, w')) :
    w.Same w' := by
  cases a with
  | plain ss cs ns m =>
    simp only [World.give, Except.ok.injEq] at e
    have := w.giveData_same ss cs ns m
    rw [e] at this; exact this
  | emitted k =>
    simp only [World.give] at e
    split at e
    · cases e
    · split at e
      · cases e; exact w.maps_same _
      · simp only [Except.bind_ok_iff, Except.map_ok_iff] at e
        obtain ⟨a, -, b, -, c, -, d, -, e⟩ := e
        have := (w.maps_same (w.maps.set k d.2)).trans
          (World.giveData_same _ a.1 (b.1.getD []) d.1 c.1)
        rw [e] at this; exact this

theorem World.giveInner_same {w w' : World} {a : Option MapArg} {h : Option SmHolder}
    (e : w.giveInner a = .ok (h, w')) : w.Same w' := by
  cases a with
  | none => cases e; exact .rfl' w
  | some a =>
    simp only [World.giveInner, Except.map_ok_iff] at e
    obtain ⟨p, h1, h2⟩ := e
    cases h2
    exact World.give_same h1

theorem lookup_pair_mem {α β : Type _} [BEq α] [LawfulBEq α] {l : List (α × β)} {a : α} {b : β}
    (h : l.lookup a = some b) : (a, b) ∈ l := by
  induction l with
  | nil => cases h
  | cons x l ih =>
    obtain ⟨c, d⟩ := x
    rw [List.lookup_cons] at h
    split at h
    · rename_i hac
      have : a = c := by simpa using hac
      subst this; cases h; simp
    · exact List.mem_cons_of_mem _ (ih h)

theorem op_source {h h' : Heap} {i : Nat} {s : Str}
    (e : (Op.source i).run h = .ok (.text s, h')) : apiSource h i = .ok (s, h') := by
  simp only [Op.run] at e
  obtain ⟨⟨s', h1⟩, e1, e2⟩ := Except.map_ok_iff.1 e
  cases e2; exact e1

theorem op_source' {h h' : Heap} {i : Nat} {s : Str} (e : apiSource h i = .ok (s, h')) :
    (Op.source i).run h = .ok (.text s, h') := by
  simp only [Op.run, e]; rfl

/-! ## The invariant -/

/-- The heap is what the logged calls make, and the JavaScript objects agree with it and with what
the program says about them. -/
structure World.Inv (w : World) (A : AHeap) (st : List JThing) : Prop where
  log : stepAll [] w.log = .ok A
  abs : Abs A w.heap
  sim : SimAll A w.objs st
  inj : ∀ (j k : Nat) (o o' : JObj), w.objs[j]? = some o → w.objs[k]? = some o' → o.ptr = o'.ptr →
    j = k ∨ ∃ v, A[o.ptr]? = some (.raw v)
  raws : ∀ v p, w.raws.lookup v = some p → A[p]? = some (.raw v)
  boots : ∀ x ∈ w.boots, x.1 < w.strs.array.length

theorem World.Inv.same {w w' : World} {A : AHeap} {st : List JThing} (I : w.Inv A st)
    (h : w.Same w') : w'.Inv A st := by
  obtain ⟨r, hr⟩ := h.strs
  refine ⟨h.log ▸ I.log, h.heap ▸ I.abs, h.objs ▸ I.sim, h.objs ▸ I.inj, h.raws ▸ I.raws, ?_⟩
  intro x hx
  rw [h.boots] at hx
  have := I.boots x hx
  rw [hr]; simp; omega

theorem tr_mono {ptrs : List Nat} (q : List Nat) {c : JSrc} {c' : Src} (h : tr ptrs c = some c') :
    tr (ptrs ++ q) c = some c' := by
  cases c with
  | str s => exact h
  | obj j =>
    simp only [tr] at *
    cases hp : ptrs[j]? with
    | none => rw [hp] at h; cases h
    | some p =>
      rw [hp] at h
      rw [List.getElem?_append_left (List.getElem?_eq_some_iff.1 hp).1, hp]; exact h

theorem trs_mono {ptrs : List Nat} (q : List Nat) {items : List JSrc} {is : List Src}
    (h : items.map (tr ptrs) = is.map some) : items.map (tr (ptrs ++ q)) = is.map some := by
  induction items generalizing is with
  | nil => exact h
  | cons i items ih =>
    cases is with
    | nil => cases h
    | cons s is =>
      simp only [List.map_cons, List.cons.injEq] at h ⊢
      exact ⟨tr_mono q h.1, ih h.2⟩

theorem getElem?_append_some {α : Type _} {l r : List α} {i : Nat} {a : α} (h : l[i]? = some a) :
    (l ++ r)[i]? = some a := by
  rw [List.getElem?_append_left (List.getElem?_eq_some_iff.1 h).1]; exact h

theorem SimThing.mono {A : AHeap} {ptrs : List Nat} {p : Nat} {k : JKind} {x : JThing}
    (h : SimThing A ptrs p k x) (B : AHeap) (q : List Nat) : SimThing (A ++ B) (ptrs ++ q) p k x := by
  cases h with
  | leaf h1 h2 h3 => exact .leaf h1 (getElem?_append_some h2) h3
  | prefixed h1 h2 => exact .prefixed (getElem?_append_some h1) (tr_mono q h2)
  | replaced h1 h2 => exact .replaced (getElem?_append_some h1) (tr_mono q h2)
  | joined h1 h2 => exact .joined (getElem?_append_some h1) (trs_mono q h2)

theorem SimThing.lt {A : AHeap} {ptrs : List Nat} {p : Nat} {k : JKind} {x : JThing}
    (h : SimThing A ptrs p k x) : p < A.length := by
  cases h with
  | leaf _ h _ => exact (List.getElem?_eq_some_iff.1 h).1
  | prefixed h _ => exact (List.getElem?_eq_some_iff.1 h).1
  | replaced h _ => exact (List.getElem?_eq_some_iff.1 h).1
  | joined h _ => exact (List.getElem?_eq_some_iff.1 h).1

theorem stepAll_snoc {A B C : AHeap} {ops : List Op} {op : Op} (h : stepAll A ops = .ok B)
    (h' : op.step B = .ok C) : stepAll A (ops ++ [op]) = .ok C := by
  rw [stepAll_append, h]
  simp [Except.bind, stepAll, h']

theorem World.call_ok {w w' : World} {op : Op} {a : Answer} (e : w.call op = .ok (a, w')) :
    ∃ h, op.run w.heap = .ok (a, h) ∧ w' = { w with heap := h, log := w.log ++ [op] } := by
  simp only [World.call] at e
  split at e
  · cases e
  · rename_i h hr; cases e; exact ⟨_, hr, rfl⟩

/-- A call that is a read. -/
theorem World.Inv.read {w w' : World} {A : AHeap} {st : List JThing} (I : w.Inv A st) {op : Op}
    {a : Answer} (hop : op.isRead = true) (e : w.call op = .ok (a, w')) : w'.Inv A st := by
  obtain ⟨h, hr, rfl⟩ := World.call_ok e
  obtain ⟨A', h1, h2⟩ := Op.run_abs I.abs op hr
  have : A' = A := by
    cases op <;> first | (cases h1; rfl) | cases hop
  subst this
  exact ⟨stepAll_snoc I.log h1, h2, I.sim, I.inj, I.raws, I.boots⟩

theorem World.Inv.length {w : World} {A : AHeap} {st : List JThing} (I : w.Inv A st) :
    w.objs.length = st.length := I.sim.len

/-- A new object that points to an existing or new wasm object. -/
theorem SimAll.push {A : AHeap} {objs : List JObj} {st : List JThing} (S : SimAll A objs st)
    (B : AHeap) (o : JObj) (x : JThing)
    (h : SimThing (A ++ B) (objs.map JObj.ptr ++ [o.ptr]) o.ptr o.kind x) :
    SimAll (A ++ B) (objs ++ [o]) (st ++ [x]) := by
  refine ⟨by simp [S.len], ?_⟩
  intro j p y hp hy
  rw [List.map_append, List.map_cons, List.map_nil]
  rw [getElem?_snoc] at hp hy
  rw [S.len] at hp
  split at hp
  · rename_i hj
    rw [if_pos hj] at hy
    cases hp; cases hy; exact h
  · rename_i hj
    rw [if_neg hj] at hy
    exact (S.each j p y hp hy).mono B _

/-- A constructor call. -/
theorem World.Inv.create {w w' : World} {A : AHeap} {st : List JThing} (I : w.Inv A st) {op : Op}
    {kind : JKind} {a : AObj} {x : JThing} (e : w.create op kind = .ok w')
    (hstep : ∀ A', op.step A = .ok A' → A' = A ++ [a])
    (hs : SimThing (A ++ [a]) (w.objs.map JObj.ptr ++ [A.length]) A.length kind x) :
    w'.Inv (A ++ [a]) (st ++ [x]) := by
  simp only [World.create, Except.map_ok_iff] at e
  obtain ⟨⟨b, w1⟩, h1, rfl⟩ := e
  obtain ⟨h, hr, rfl⟩ := World.call_ok h1
  obtain ⟨A', k1, k2⟩ := Op.run_abs I.abs op hr
  have := hstep A' k1
  subst this
  have hl : w.heap.length = A.length := I.abs.1.symm
  refine ⟨stepAll_snoc I.log k1, k2, ?_, ?_, ?_, I.boots⟩
  · refine I.sim.push [a] _ x ?_
    simpa [hl] using hs
  · intro j k o o' ho ho' hp
    simp only [getElem?_snoc] at ho ho'
    split at ho <;> split at ho'
    · left; omega
    · cases ho
      obtain ⟨y, hy, s⟩ := I.sim.get' ho'
      have := s.lt
      simp at hp; omega
    · cases ho'
      obtain ⟨y, hy, s⟩ := I.sim.get' ho
      have := s.lt
      simp at hp; omega
    · rcases I.inj j k o o' ho ho' hp with h | ⟨v, hv⟩
      · exact .inl h
      · exact .inr ⟨v, getElem?_append_some hv⟩
  · intro v p hp
    exact getElem?_append_some (I.raws v p hp)

theorem World.src_ok {w : World} {c : JSrc} {s : Src} (e : w.src c = .ok s) :
    tr (w.objs.map JObj.ptr) c = some s := by
  cases c with
  | str x => cases e; rfl
  | obj j =>
    simp only [World.src] at e
    split at e
    · rename_i o ho; cases e; exact tr_obj ho
    · cases e

/-- Changing an object that is not shared. -/
theorem SimAll.set {A : AHeap} {objs : List JObj} {st : List JThing} (S : SimAll A objs st)
    {j : Nat} {o o' : JObj} (ho : objs[j]? = some o) (hp : o'.ptr = o.ptr) (a : AObj) (x : JThing)
    (hinj : ∀ (k : Nat) (p : JObj), objs[k]? = some p → p.ptr = o.ptr → k = j)
    (hs : SimThing (A.set o.ptr a) (objs.map JObj.ptr) o.ptr o'.kind x) :
    SimAll (A.set o.ptr a) (objs.set j o') (st.set j x) := by
  have hptr : (objs.set j o').map JObj.ptr = objs.map JObj.ptr := by
    apply List.ext_getElem?
    intro k
    rw [List.getElem?_map, List.getElem?_map, List.getElem?_set]
    split
    · rename_i hk; subst hk
      have hlt := (List.getElem?_eq_some_iff.1 ho).1
      rw [ho, if_pos hlt, Option.map_some, Option.map_some, hp]
    · rfl
  refine ⟨by simp [S.len], ?_⟩
  intro k p y hk hy
  rw [hptr]
  rw [List.getElem?_set] at hk hy
  split at hk
  · rename_i hjk; subst hjk
    rw [if_pos rfl] at hy
    split at hk
    · split at hy
      · cases hk; cases hy; rw [hp]; exact hs
      · cases hy
    · cases hk
  · rename_i hjk
    rw [if_neg hjk] at hy
    have sim := S.each k p y hk hy
    have hne : o.ptr ≠ p.ptr := fun h => hjk (hinj k p hk h.symm).symm
    have get : ∀ b, A[p.ptr]? = some b → (A.set o.ptr a)[p.ptr]? = some b := by
      intro b hb
      rw [List.getElem?_set, if_neg hne]; exact hb
    generalize p.kind = kd at sim
    cases sim with
    | leaf h1 h2 h3 => exact .leaf h1 (get _ h2) h3
    | prefixed h1 h2 => exact .prefixed (get _ h1) h2
    | replaced h1 h2 => exact .replaced (get _ h1) h2
    | joined h1 h2 => exact .joined (get _ h1) h2

theorem getElem?_set_raw {A : AHeap} {i p : Nat} {v : Str} {a b : AObj} (hb : A[i]? = some b)
    (hne : ∀ v, b ≠ .raw v) (h : A[p]? = some (.raw v)) : (A.set i a)[p]? = some (.raw v) := by
  rw [List.getElem?_set]
  split
  · rename_i hip; subst hip
    rw [hb] at h; cases h; exact absurd rfl (hne v)
  · exact h

/-- A call that changes one object. -/
theorem World.Inv.change {w : World} {A : AHeap} {st : List JThing} (I : w.Inv A st) {op : Op}
    {j : Nat} {o o' : JObj} {h : Heap} {ans : Answer} {a b : AObj} {x : JThing}
    (ho : w.objs[j]? = some o) (hp : o'.ptr = o.ptr) (hA : A[o.ptr]? = some b)
    (hne : ∀ v, b ≠ .raw v) (hr : op.run w.heap = .ok (ans, h))
    (hstep : ∀ A', op.step A = .ok A' → A' = A.set o.ptr a)
    (hs : SimThing (A.set o.ptr a) (w.objs.map JObj.ptr) o.ptr o'.kind x) :
    World.Inv { w with heap := h, log := w.log ++ [op], objs := w.objs.set j o' } (A.set o.ptr a)
      (st.set j x) := by
  obtain ⟨A', k1, k2⟩ := Op.run_abs I.abs op hr
  have := hstep A' k1
  subst this
  have hinj : ∀ (k : Nat) (p : JObj), w.objs[k]? = some p → p.ptr = o.ptr → k = j := by
    intro k p hk hpp
    rcases I.inj j k o p ho hk hpp.symm with h | ⟨v, hv⟩
    · exact h.symm
    · rw [hA] at hv; cases hv; exact absurd rfl (hne v)
  refine ⟨stepAll_snoc I.log k1, k2, I.sim.set ho hp a x hinj hs, ?_, ?_, I.boots⟩
  · have back : ∀ (k : Nat) (p : JObj), (w.objs.set j o')[k]? = some p →
        ∃ p', w.objs[k]? = some p' ∧ p'.ptr = p.ptr := by
      intro k p hk
      rw [List.getElem?_set] at hk
      split at hk
      · rename_i hjk; subst hjk
        split at hk
        · cases hk; exact ⟨o, ho, hp.symm⟩
        · cases hk
      · exact ⟨p, hk, rfl⟩
    intro k l p q hk hl hpq
    obtain ⟨p', hp', e1⟩ := back k p hk
    obtain ⟨q', hq', e2⟩ := back l q hl
    rcases I.inj k l p' q' hp' hq' (by rw [e1, e2, hpq]) with h | ⟨v, hv⟩
    · exact .inl h
    · refine .inr ⟨v, ?_⟩
      rw [← e1]
      exact getElem?_set_raw hA hne hv
  · intro v p hp'
    exact getElem?_set_raw hA hne (I.raws v p hp')

/-! ## Adding -/

theorem World.Inv.addItem {w w' : World} {A : AHeap} {st : List JThing} (I : w.Inv A st) {j : Nat}
    {item : JSrc} (e : w.addItem j item = .ok w') : ∃ A', w'.Inv A' (addTo st j item) := by
  simp only [World.addItem] at e
  split at e
  · rename_i ptr cs ho
    simp only [Except.bind_ok_iff, Except.map_ok_iff] at e
    obtain ⟨s, hs, ⟨ans, w1⟩, h1, rfl⟩ := e
    obtain ⟨h, hr, rfl⟩ := World.call_ok h1
    obtain ⟨x, hx, sim⟩ := I.sim.get' ho
    have htr := World.src_ok hs
    cases sim with
    | leaf hk _ _ => cases hk
    | @joined _ items is hA hi =>
      -- what the call does to the heap
      have key : ∀ ds ds' : List _, flat st item = ds → ds.map (tr (w.objs.map JObj.ptr)) = ds'.map some →
          (∀ A', (Op.add ptr s).step A = .ok A' → A' = A.set ptr (.concat (is ++ ds'))) →
          ∃ A', World.Inv { { w with heap := h, log := w.log ++ [Op.add ptr s] } with
            objs := w.objs.set j ⟨ptr, .concat (cs ++ [item])⟩ } A' (addTo st j item) := by
        intro ds ds' hd hmap hstep
        have hlt := (List.getElem?_eq_some_iff.1 hA).1
        have := I.change (o' := ⟨ptr, .concat (cs ++ [item])⟩) (x := .joined (items ++ ds)) ho rfl hA
          (by simp) hr hstep (.joined (is := is ++ ds') (by rw [List.getElem?_set]; simp [hlt])
          (by rw [List.map_append, List.map_append, hi, hmap]))
        refine ⟨A.set ptr (.concat (is ++ ds')), ?_⟩
        rw [addTo, hx, hd]
        exact this
      cases item with
      | str t =>
        cases htr
        refine key [.str t] [.str t] rfl rfl ?_
        intro A' hstep
        simp only [Op.step, aAdd, hA] at hstep
        cases hstep; rfl
      | obj k =>
        simp only [World.src] at hs
        split at hs
        · rename_i p hk
          cases hs
          obtain ⟨y, hy, simp_⟩ := I.sim.get' hk
          have other : (∀ is', A[p.ptr]? ≠ some (.concat is')) → (∀ l, y ≠ .joined l) →
              ∃ A', World.Inv { { w with heap := h, log := w.log ++ [Op.add ptr (.ref p.ptr)] } with
                objs := w.objs.set j ⟨ptr, .concat (cs ++ [.obj k])⟩ } A' (addTo st j (.obj k)) := by
            intro hnc hnj
            refine key [.obj k] [.ref p.ptr] ?_ (by simp [tr_obj hk]) ?_
            · simp only [flat, hy]
              cases y with
              | joined l => exact absurd rfl (hnj l)
              | _ => rfl
            · intro A' hstep
              simp only [Op.step, aAdd, hA] at hstep
              cases hq : A[p.ptr]? with
              | none => rw [hq] at hstep; cases hstep
              | some q =>
                rw [hq] at hstep
                cases q with
                | concat l => exact absurd hq (hnc l)
                | _ => cases hstep; rfl
          generalize p.kind = kd at simp_
          cases simp_ with
          | leaf h1 h2 h3 =>
            refine other (fun is' hc => ?_) (by simp)
            rw [h2] at hc; cases hc; cases h3
          | prefixed h1 h2 => exact other (fun is' hc => by rw [h1] at hc; cases hc) (by simp)
          | replaced h1 h2 => exact other (fun is' hc => by rw [h1] at hc; cases hc) (by simp)
          | @joined _ items' is' h1 h2 =>
            refine key items' is' (by simp only [flat, hy]) h2 ?_
            intro A' hstep
            simp only [Op.step, aAdd, hA, h1] at hstep
            split at hstep
            · cases hstep
            · cases hstep; rfl
        · cases hs
  · cases e

theorem World.Inv.addItems {w w' : World} {A : AHeap} {st : List JThing} (I : w.Inv A st) {j : Nat}
    {items : List JSrc} (e : w.addItems j items = .ok w') :
    ∃ A', w'.Inv A' (items.foldl (fun s i => addTo s j i) st) := by
  induction items generalizing w A st with
  | nil => cases e; exact ⟨A, I⟩
  | cons i items ih =>
    simp only [World.addItems, Except.bind_ok_iff] at e
    obtain ⟨w1, h1, h2⟩ := e
    obtain ⟨A1, I1⟩ := I.addItem h1
    exact ih I1 h2

/-! ## Requests -/

theorem World.Inv.ask {w w' : World} {A : AHeap} {st : List JThing} (I : w.Inv A st) {j : Nat}
    {ptr : Nat} {c : JSrc} {op : Op} {ans : Answer} {r : JRequest}
    (ho : w.objs[j]? = some ⟨ptr, .replace c⟩) (e : w.call op = .ok (ans, w'))
    (hop : op.step A = aCall A ptr r.call) : ∃ A', w'.Inv A' (askTo st j r) := by
  obtain ⟨h, hr, rfl⟩ := World.call_ok e
  obtain ⟨x, hx, sim⟩ := I.sim.get' ho
  cases sim with
  | leaf hk _ _ => cases hk
  | @replaced _ c' rs hA hc =>
    have hlt := (List.getElem?_eq_some_iff.1 hA).1
    have hset : w.objs.set j ⟨ptr, .replace c⟩ = w.objs := by
      apply List.ext_getElem?
      intro k
      rw [List.getElem?_set]
      split
      · rename_i hk; subst hk
        rw [if_pos (List.getElem?_eq_some_iff.1 ho).1, ho]
      · rfl
    have := I.change (o' := ⟨ptr, .replace c⟩) (x := .replaced c (rs ++ [r]))
      (a := .replace c' ((rs ++ [r]).map JRequest.call)) ho rfl hA (by simp) hr ?_
      (.replaced (by rw [List.getElem?_set]; simp [hlt]) hc)
    · rw [hset] at this
      refine ⟨A.set ptr (.replace c' ((rs ++ [r]).map JRequest.call)), ?_⟩
      rw [askTo, hx]
      exact this
    · intro A' hs
      rw [hop] at hs
      dsimp only at hA
      simp only [aCall, hA] at hs
      cases hs
      simp

theorem replaceCall_js {a b : Rat} (ha : Spec.Proper a) (hb : Spec.Proper b) (t : Str) :
    replaceCall a.floor b.floor t (jsOrder a) (jsOrder b) = JRequest.call ⟨a, b, t⟩ := by
  simp only [replaceCall, mkReplace, Repl.call, JRequest.call, jsOrder_proper ha, jsOrder_proper hb]

theorem insertCall_js {a : Rat} (ha : Spec.Proper a) (t : Str) :
    insertCall a.floor t (jsOrder a) = JRequest.call ⟨a, a - 1, t⟩ := by
  have := jsOrder_proper ha
  simp only [insertCall, mkInsert, Repl.call, JRequest.call, sixteenth_sub_one]
  congr 1; omega

/-! ## Reads -/

theorem World.Inv.readSource {w w' : World} {A : AHeap} {st : List JThing} (I : w.Inv A st) {j : Nat}
    {s : Str} (e : w.readSource j = .ok (s, w')) : w'.Inv A st := by
  simp only [World.readSource] at e
  split at e
  · cases e
  · split at e
    · cases e; exact I
    · simp only [Except.bind_ok_iff] at e
      obtain ⟨⟨a, w1⟩, h1, h2⟩ := e
      have := I.read rfl h1
      split at h2
      · cases h2; exact this
      · cases h2

theorem World.Inv.readSize {w w' : World} {A : AHeap} {st : List JThing} (I : w.Inv A st) {j n : Nat}
    (e : w.readSize j = .ok (n, w')) : w'.Inv A st := by
  simp only [World.readSize] at e
  split at e
  · cases e
  · split at e
    · cases e; exact I
    · simp only [Except.bind_ok_iff] at e
      obtain ⟨⟨a, w1⟩, h1, h2⟩ := e
      have := I.read rfl h1
      split at h2
      · cases h2; exact this
      · cases h2

theorem World.Inv.emit {w w' : World} {A : AHeap} {st : List JThing} (I : w.Inv A st) {j : Nat}
    {c m : Bool} {a : JAnswer} (e : w.emit j c m = .ok (a, w')) : w'.Inv A st := by
  simp only [World.emit] at e
  split at e
  · cases e
  · split at e
    · cases e; exact I
    · split at e
      · simp only [Except.bind_ok_iff] at e
        obtain ⟨⟨a, w1⟩, h1, h2⟩ := e
        have := I.read rfl h1
        split at h2
        · cases h2; exact this.same (w1.maps_same _)
        · cases h2
      · simp only [Except.bind_ok_iff] at e
        obtain ⟨⟨a, w1⟩, h1, h2⟩ := e
        have := I.read rfl h1
        split at h2
        · cases h2; exact this.same (w1.maps_same _)
        · cases h2

theorem World.Inv.hash {A : AHeap} {st : List JThing} : ∀ n : Nat,
    (∀ (w w' : World) j l, w.Inv A st → World.hashObj n w j = .ok (l, w') → w'.Inv A st) ∧
    (∀ (cs : List JSrc) (w w' : World) l, w.Inv A st → World.hashEach (World.hashObj n) w cs = .ok (l, w') →
      w'.Inv A st) := by
  intro n
  have items : ∀ n : Nat,
      (∀ (w w' : World) j l, w.Inv A st → World.hashObj n w j = .ok (l, w') → w'.Inv A st) →
      ∀ (cs : List JSrc) (w w' : World) l, w.Inv A st → World.hashEach (World.hashObj n) w cs = .ok (l, w') →
        w'.Inv A st := by
    intro n ih cs
    induction cs with
    | nil => intro w w' l I e; rw [World.hashEach] at e; cases e; exact I
    | cons c cs ihc =>
      intro w w' l I e
      cases c with
      | str s =>
        rw [World.hashEach] at e
        simp only [Except.map_ok_iff] at e
        obtain ⟨p, h1, h2⟩ := e
        cases h2
        exact ihc _ _ _ I h1
      | obj j =>
        rw [World.hashEach] at e
        simp only [Except.bind_ok_iff, Except.map_ok_iff] at e
        obtain ⟨p, h1, q, h2, h3⟩ := e
        cases h3
        exact ihc _ _ _ (ih _ _ _ _ I h1) h2
  induction n with
  | zero =>
    have : ∀ (w w' : World) j l, w.Inv A st → World.hashObj 0 w j = .ok (l, w') → w'.Inv A st := by
      intro w w' j l I e; rw [World.hashObj] at e; cases e
    exact ⟨this, items 0 this⟩
  | succ n ih =>
    have : ∀ (w w' : World) j l, w.Inv A st → World.hashObj (n + 1) w j = .ok (l, w') →
        w'.Inv A st := by
      intro w w' j l I e
      rw [World.hashObj] at e
      split at e
      · cases e
      · split at e
        · cases e; exact I
        · cases e; exact I
        · cases e; exact I
        · cases e; exact I
        · simp only [Except.map_ok_iff] at e
          obtain ⟨p, h1, h2⟩ := e
          cases h2
          exact ih.2 _ _ _ _ I h1
        · simp only [Except.map_ok_iff] at e
          obtain ⟨p, h1, h2⟩ := e
          cases h2
          exact I.readSource h1
        · exact ih.2 _ _ _ _ I e
    exact ⟨this, items _ this⟩

/-! ## Constructors of leaves -/

theorem World.Inv.newRaw {w w' : World} {A : AHeap} {st : List JThing} (I : w.Inv A st) {v : Str}
    (e : w.newRaw v = .ok w') : ∃ A', w'.Inv A' (st ++ [.leaf v []]) := by
  simp only [World.newRaw] at e
  split at e
  · rename_i p hp
    cases e
    have hA := I.raws v p hp
    refine ⟨A, I.log, I.abs, ?_, ?_, I.raws, I.boots⟩
    · have := I.sim.push [] ⟨p, .raw v⟩ (.leaf v []) (.leaf rfl (by simpa using hA) rfl)
      simpa using this
    · intro j k o o' ho ho' hpp
      simp only [getElem?_snoc] at ho ho'
      split at ho
      · cases ho; exact .inr ⟨v, hA⟩
      · split at ho'
        · cases ho'; exact .inr ⟨v, by rw [hpp]; exact hA⟩
        · exact I.inj j k o o' ho ho' hpp
  · simp only [Except.map_ok_iff] at e
    obtain ⟨w1, h1, rfl⟩ := e
    have hl : w.heap.length = A.length := I.abs.1.symm
    have J := I.create (x := .leaf v []) (a := .raw v) h1 (by intro A' h; cases h; rfl)
      (.leaf rfl (a := .raw v) (by simp) rfl)
    refine ⟨_, J.log, J.abs, J.sim, J.inj, ?_, J.boots⟩
    intro u p hu
    simp only [List.lookup_cons] at hu
    split at hu
    · rename_i huv
      cases hu
      have : u = v := by simpa using huv
      subst this
      rw [hl]; simp
    · exact J.raws u p hu

theorem World.Inv.leaf {w w' : World} {A : AHeap} {st : List JThing} (I : w.Inv A st) {op : Op}
    {kind : JKind} {a : AObj} {v : Str} (e : w.create op kind = .ok w') (hk : kind.value = some v)
    (hstep : ∀ A', op.step A = .ok A' → A' = A ++ [a]) (ha : a.leafText = some v) :
    w'.Inv (A ++ [a]) (st ++ [.leaf v kind.extra]) :=
  I.create e hstep (.leaf hk (by simp) ha)

theorem World.Inv.newOriginal {w w' : World} {A : AHeap} {st : List JThing} (I : w.Inv A st)
    {v n : Str} (e : w.newOriginal v n = .ok w') : ∃ A', w'.Inv A' (st ++ [.leaf v []]) := by
  simp only [World.newOriginal] at e
  have s1 := w.internNew_same (some v)
  have s2 := (w.internNew (some v)).2.intern_same (some n)
  have I2 := I.same (s1.trans s2)
  generalize hp : w.internNew (some v) = p at *
  generalize hq : p.2.intern (some n) = q at *
  split at e
  · split at e
    · -- the cache never has the index just made
      rename_i ptr hb
      exfalso
      have hmem := lookup_pair_mem hb
      rw [s2.boots, s1.boots] at hmem
      have := I.boots _ hmem
      rw [← hp] at this
      simp [World.internNew, StrTable.addUnchecked] at this
    · simp only [Except.map_ok_iff] at e
      obtain ⟨w1, h1, rfl⟩ := e
      have J := I2.leaf (a := .original v q.1 p.1) h1 rfl (by intro A' h; cases h; rfl) rfl
      refine ⟨_, J.log, J.abs, J.sim, J.inj, J.raws, ?_⟩
      have hw : w1.strs = q.2.strs := by
        simp only [World.create, Except.map_ok_iff] at h1
        obtain ⟨⟨b, w2⟩, h2, rfl⟩ := h1
        obtain ⟨h, -, rfl⟩ := World.call_ok h2
        rfl
      intro x hx
      simp only [List.mem_cons] at hx
      rcases hx with rfl | hx
      · obtain ⟨r, hr⟩ := s2.strs
        show p.1.toNat < w1.strs.array.length
        rw [hw, hr, ← hp]
        simp [World.internNew, StrTable.addUnchecked]
      · exact J.boots x hx
  · exact ⟨_, I2.leaf (a := .original v q.1 p.1) e rfl (by intro A' h; cases h; rfl) rfl⟩

theorem World.Inv.newL2l {w w' : World} {A : AHeap} {st : List JThing} (I : w.Inv A st)
    {v n o : Str} (e : w.newL2l v n o = .ok w') : ∃ A', w'.Inv A' (st ++ [.leaf v [o]]) := by
  have I2 := I.same ((w.intern_same (some n)).trans ((w.intern (some n)).2.internNew_same (some o)))
  exact ⟨_, I2.leaf e rfl (by intro A' h; cases h; rfl) rfl⟩

theorem World.Inv.newSms {w w' : World} {A : AHeap} {st : List JThing} (I : w.Inv A st)
    {v n : Str} {map : MapArg} {orig : Option Str} {inner : Option MapArg}
    (e : w.newSms v n map orig inner = .ok w') : ∃ A', w'.Inv A' (st ++ [.leaf v (orig.toList.filter (· ≠ []))]) := by
  simp only [World.newSms, Except.bind_ok_iff] at e
  obtain ⟨m, h1, i, h2, h3⟩ := e
  have s1 := (w.internNew_same (some v)).trans ((w.internNew (some v)).2.intern_same (some n))
  have s2 := s1.trans (World.give_same h1)
  have s3 : w.Same i.2 := by
    refine World.Same.trans ?_ (World.giveInner_same h2)
    cases truthy orig with
    | none => exact s2
    | some s => exact s2.trans (World.internNew_same _ _)
  have hx : (truthy orig).toList = orig.toList.filter (· ≠ []) := by
    match orig with
    | none => rfl
    | some [] => rfl
    | some (c :: s) => rfl
  rw [← hx]
  exact ⟨_, (I.same s3).leaf h3 rfl (by intro A' h; cases h; rfl) rfl⟩

/-! ## All statements -/

theorem JOp.run_inv {w w' : World} {A : AHeap} {st : List JThing} (I : w.Inv A st) {op : JOp}
    (hp : op.Proper) {a : JAnswer} (e : op.run w = .ok (a, w')) : ∃ A', w'.Inv A' (jstep st op) := by
  cases op with
  | newRaw v =>
    simp only [JOp.run, Except.map_ok_iff] at e
    obtain ⟨_, h, h2⟩ := e; cases h2; exact I.newRaw h
  | newOriginal v n =>
    simp only [JOp.run, Except.map_ok_iff] at e
    obtain ⟨_, h, h2⟩ := e; cases h2; exact I.newOriginal h
  | newL2l v n o =>
    simp only [JOp.run, Except.map_ok_iff] at e
    obtain ⟨_, h, h2⟩ := e; cases h2; exact I.newL2l h
  | newSms v n m o i =>
    simp only [JOp.run, Except.map_ok_iff] at e
    obtain ⟨_, h, h2⟩ := e; cases h2; exact I.newSms h
  | newPrefix p c =>
    simp only [JOp.run, Except.map_ok_iff, Except.bind_ok_iff] at e
    obtain ⟨s, hs, _, h, h2⟩ := e; cases h2
    refine ⟨_, I.create (a := .prefixed p s) h ?_ (.prefixed (by simp) (tr_mono _ (World.src_ok hs)))⟩
    intro A' hA
    simp only [Op.step] at hA
    split at hA
    · cases hA; rfl
    · cases hA
  | newReplace c =>
    simp only [JOp.run, Except.map_ok_iff, Except.bind_ok_iff] at e
    obtain ⟨s, hs, _, h, h2⟩ := e; cases h2
    refine ⟨_, I.create (a := .replace s []) h ?_
      (.replaced (by simp) (tr_mono _ (World.src_ok hs)))⟩
    intro A' hA
    simp only [Op.step] at hA
    split at hA
    · cases hA; rfl
    · cases hA
  | newConcat items =>
    simp only [JOp.run, Except.map_ok_iff, Except.bind_ok_iff] at e
    obtain ⟨w1, h1, w2, h2, h3⟩ := e; cases h3
    have J := I.create (a := .concat []) (x := .joined []) h1 (by intro A' h; cases h; rfl)
      (.joined (is := []) (by simp) rfl)
    rw [I.length] at h2
    exact J.addItems h2
  | add j item =>
    simp only [JOp.run, Except.map_ok_iff] at e
    obtain ⟨_, h, h2⟩ := e; cases h2; exact I.addItem h
  | replace j a b t =>
    simp only [JOp.run] at e
    split at e
    · rename_i ho
      simp only [Except.map_ok_iff] at e
      obtain ⟨p, h1, h2⟩ := e; cases h2
      exact I.ask (r := ⟨a, b, t⟩) ho h1 (by rw [Op.step, replaceCall_js hp.1 hp.2])
    · cases e
  | insert j a t =>
    simp only [JOp.run] at e
    split at e
    · rename_i ho
      simp only [Except.map_ok_iff] at e
      obtain ⟨p, h1, h2⟩ := e; cases h2
      exact I.ask (r := ⟨a, a - 1, t⟩) ho h1 (by rw [Op.step, insertCall_js hp])
    · cases e
  | source j =>
    simp only [JOp.run, Except.map_ok_iff] at e
    obtain ⟨_, h, h2⟩ := e; cases h2; exact ⟨A, I.readSource h⟩
  | size j =>
    simp only [JOp.run, Except.map_ok_iff] at e
    obtain ⟨_, h, h2⟩ := e; cases h2; exact ⟨A, I.readSize h⟩
  | sourceAndMap j c m => exact ⟨A, I.emit e⟩
  | hash j =>
    simp only [JOp.run, Except.map_ok_iff] at e
    obtain ⟨_, h, h2⟩ := e; cases h2; exact ⟨A, (World.Inv.hash _).1 _ _ _ _ I h⟩
  | get k f =>
    simp only [JOp.run] at e
    split at e
    · cases e
    · simp only [Except.map_ok_iff] at e
      obtain ⟨p, h1, h2⟩ := e; cases h2
      exact ⟨A, I.same (w.maps_same _)⟩
  | set k f =>
    simp only [JOp.run] at e
    split at e
    · cases e
    · cases e
      exact ⟨A, I.same (w.maps_same _)⟩

theorem World.empty_inv : World.empty.Inv [] [] := by
  refine ⟨rfl, ⟨rfl, ?_⟩, ⟨rfl, ?_⟩, ?_, ?_, ?_⟩ <;> simp [World.empty]

theorem World.runFrom_inv {ops : List JOp} {w w' : World} {A : AHeap} {st : List JThing}
    (I : w.Inv A st) (hp : ∀ op ∈ ops, op.Proper) (e : w.runFrom ops = .ok w') :
    ∃ A', w'.Inv A' (ops.foldl jstep st) := by
  induction ops generalizing w A st with
  | nil => cases e; exact ⟨A, I⟩
  | cons op ops ih =>
    simp only [World.runFrom, Except.bind_ok_iff] at e
    obtain ⟨⟨a, w1⟩, h1, h2⟩ := e
    obtain ⟨A1, I1⟩ := JOp.run_inv I (hp op (by simp)) h1
    exact ih I1 (fun o ho => hp o (by simp [ho])) h2

/-- Every program is a history of wasm calls on objects that agree with its statements. -/
theorem World.run_inv {ops : List JOp} {w : World} (hp : ∀ op ∈ ops, op.Proper)
    (e : World.run ops = .ok w) : ∃ A, w.Inv A (jthings ops) :=
  World.runFrom_inv World.empty_inv hp e

/-! ## The text -/

theorem World.Inv.source_iff {w : World} {A : AHeap} {st : List JThing} (I : w.Inv A st) (j : Nat)
    (s : Str) : (∃ w', w.readSource j = .ok (s, w')) ↔ JText st (.obj j) s := by
  constructor
  · rintro ⟨w', e⟩
    simp only [World.readSource] at e
    split at e
    · cases e
    · rename_i o ho
      obtain ⟨x, hx, sim⟩ := I.sim.get' ho
      split at e
      · rename_i v hv
        cases e
        generalize o.kind = k at sim hv
        cases sim with
        | leaf hk _ _ => rw [hk] at hv; cases hv; exact .leaf hx
        | prefixed => cases hv
        | replaced => cases hv
        | joined => cases hv
      · simp only [Except.bind_ok_iff] at e
        obtain ⟨⟨a, w1⟩, h1, h2⟩ := e
        obtain ⟨h, hr, rfl⟩ := World.call_ok h1
        split at h2
        · rename_i t ht
          cases h2
          dsimp only at ht
          subst ht
          obtain ⟨t, ht, rfl⟩ := (api_source_iff I.abs o.ptr _).1 ⟨h, op_source hr⟩
          exact JText.of_unfolds I.sim ht _ (tr_obj ho)
        · cases h2
  · intro ht
    have hj : ∃ o, w.objs[j]? = some o := by
      cases ht with
      | leaf hx => exact (I.sim.get hx).imp fun _ h => h.1
      | prefixed hx _ => exact (I.sim.get hx).imp fun _ h => h.1
      | replaced hx _ _ => exact (I.sim.get hx).imp fun _ h => h.1
      | joined hx _ _ => exact (I.sim.get hx).imp fun _ h => h.1
    obtain ⟨o, ho⟩ := hj
    obtain ⟨x, hx, sim⟩ := I.sim.get' ho
    simp only [World.readSource, ho]
    cases hv : o.kind.value with
    | some v =>
      refine ⟨w, ?_⟩
      generalize o.kind = k at sim hv
      cases sim with
      | leaf hk _ _ =>
        rw [hk] at hv; cases hv
        cases ht with
        | leaf hx' => rw [hx] at hx'; cases hx'; rfl
        | prefixed hx' _ => rw [hx] at hx'; cases hx'
        | replaced hx' _ _ => rw [hx] at hx'; cases hx'
        | joined hx' _ _ => rw [hx] at hx'; cases hx'
      | prefixed => cases hv
      | replaced => cases hv
      | joined => cases hv
    | none =>
      obtain ⟨t, h1, rfl⟩ := JText.unfolds I.sim ht _ (tr_obj ho)
      obtain ⟨h', e⟩ := (api_source_iff I.abs o.ptr _).2 ⟨t, h1, rfl⟩
      refine ⟨{ w with heap := h', log := w.log ++ [.source o.ptr] }, ?_⟩
      simp only [World.call, op_source' e, Except.bind]

end WS
