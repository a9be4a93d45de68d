import Verif.Proofs.JsLabel
import Verif.Proofs.LineRename
/-! # The contents an object brings along

Contents are put into the string table by `addUnchecked`, so every object has indices of its own for
them. -/

namespace WS
open Spec

/-- The indices stand for the strings. -/
abbrev StrTable.CallsAll (t : StrTable JVal) : List Int → List JVal → Prop := Each2 t.Calls

/-- The contents a statement puts into the table. -/
def Spec.JOp.brings : JOp → List JVal
  | .newOriginal v _ => [some v]
  | .newL2l _ _ o => [some o]
  | .newSms v _ (.plain _ cs _ _) _ _ => some v :: cs
  | _ => []

/-- The wasm constructor call holds the indices. -/
def Holding (c : Option Op) (l : List Int) : JOp → Prop
  | .newOriginal v _ => ∃ i k, c = some (.newOriginal v i k) ∧ l = [k]
  | .newL2l v _ _ => ∃ i k, c = some (.newL2l v i k) ∧ l = [k]
  | .newSms v _ (.plain ..) _ _ => ∃ vi i d o inner, c = some (.newSms v vi i ⟨some d, none⟩ o inner) ∧ l = vi :: d.contents
  | _ => l = []

theorem Holding.mono {c c' : Option Op} (hc : ∀ o, c = some o → c' = some o) {l : List Int} {op : JOp}
    (h : Holding c l op) : Holding c' l op := by
  cases op with
  | newOriginal v n => obtain ⟨i, k, h1, h2⟩ := h; exact ⟨i, k, hc _ h1, h2⟩
  | newL2l v n o => obtain ⟨i, k, h1, h2⟩ := h; exact ⟨i, k, hc _ h1, h2⟩
  | newSms v n m o i =>
    cases m with
    | plain ss cs ns mp =>
      obtain ⟨vi, j, d, o', inner, h1, h2⟩ := h
      exact ⟨vi, j, d, o', inner, hc _ h1, h2⟩
    | emitted k => exact h
  | _ => exact h

/-- Which indices belong to which object: each to one object and one place in it. -/
structure World.Ledger (w : World) (made : List JOp) (L : List (List Int)) : Prop where
  len : w.objs.length = made.length
  size : L.length = made.length
  below : ∀ l ∈ L, ∀ i ∈ l, 0 ≤ i ∧ i < w.strs.array.length
  once : ∀ (j k j' k' : Nat) (l l' : List Int) (i : Int), L[j]? = some l → L[j']? = some l' →
    l[k]? = some i → l'[k']? = some i → j = j' ∧ k = k'
  each : ∀ (j p : Nat) (op : JOp) (l : List Int), (w.objs.map JObj.ptr)[j]? = some p → made[j]? = some op →
    L[j]? = some l → Holding (created w.log)[p]? l op ∧ w.strs.CallsAll l (Spec.JOp.brings op)

theorem CallsAll.mono {t t' : StrTable JVal} (g : ∃ r, t'.array = t.array ++ r) {l : List Int} {vs : List JVal}
    (h : t.CallsAll l vs) : t'.CallsAll l vs := by
  induction h with
  | nil => exact .nil
  | cons h _ ih => exact .cons (h.mono g) ih

theorem World.Later.holding {w w' : World} (h : w.Later w') {p : Nat} {l : List Int} {op : JOp}
    (k : Holding (created w.log)[p]? l op) : Holding (created w'.log)[p]? l op := by
  obtain ⟨x, hl⟩ := h.log
  refine k.mono fun o e => ?_
  rw [hl, created, List.filter_append]
  exact getElem?_append_some e

theorem World.Later.grown {w w' : World} (h : w.Later w') : w.strs.array.length ≤ w'.strs.array.length := by
  obtain ⟨r, hr⟩ := h.strs.array
  rw [hr, List.length_append]; omega

theorem World.Ledger.later {w w' : World} {made : List JOp} {L : List (List Int)} (G : w.Ledger made L) (h : w.Later w')
    (hp : w'.objs.map JObj.ptr = w.objs.map JObj.ptr) : w'.Ledger made L := by
  refine ⟨?_, G.size, fun l hl i hi => ?_, G.once, fun j p op l e1 e2 e3 => ?_⟩
  · have := congrArg List.length hp
    simp only [List.length_map] at this
    rw [this]; exact G.len
  · have := G.below l hl i hi
    have := h.grown
    omega
  · obtain ⟨h1, h2⟩ := G.each j p op l (hp ▸ e1) e2 e3
    exact ⟨h.holding h1, CallsAll.mono h.strs.array h2⟩

/-- New indices in order. -/
def NewIds (l : List Int) (a b : Nat) : Prop := (∀ i ∈ l, (a : Int) ≤ i ∧ i < (b : Int)) ∧ l.Pairwise (· < ·)

theorem pairwise_lt_inj {l : List Int} (h : l.Pairwise (· < ·)) {k k' : Nat} {i : Int} (e : l[k]? = some i)
    (e' : l[k']? = some i) : k = k' := by
  obtain ⟨h1, h2⟩ := List.getElem?_eq_some_iff.1 e
  obtain ⟨h3, h4⟩ := List.getElem?_eq_some_iff.1 e'
  rw [List.pairwise_iff_getElem] at h
  rcases Nat.lt_trichotomy k k' with hk | hk | hk
  · have := h k k' h1 h3 hk; omega
  · exact hk
  · have := h k' k h3 h1 hk; omega

theorem World.Ledger.push {w w' : World} {made : List JOp} {L : List (List Int)} (G : w.Ledger made L) (h : w.Later w')
    {n : Nat} (hp : w'.objs.map JObj.ptr = w.objs.map JObj.ptr ++ [n]) {op : JOp} {l : List Int}
    (hn : NewIds l w.strs.array.length w'.strs.array.length)
    (k : Holding (created w'.log)[n]? l op) (kc : w'.strs.CallsAll l (Spec.JOp.brings op)) :
    w'.Ledger (made ++ [op]) (L ++ [l]) := by
  have hlen := congrArg List.length hp
  simp only [List.length_map, List.length_append, List.length_cons, List.length_nil] at hlen
  refine ⟨by rw [hlen, G.len]; simp, by simp [G.size], fun x hx i hi => ?_, ?_, fun j p o x e1 e2 e3 => ?_⟩
  · rcases List.mem_append.1 hx with hx | hx
    · have := G.below x hx i hi
      have := h.grown
      omega
    · rw [List.mem_singleton.1 hx] at hi
      have := hn.1 i hi
      omega
  · have old : ∀ {j k : Nat} {x : List Int} {i : Int}, L[j]? = some x → x[k]? = some i → i < w.strs.array.length :=
      fun h1 h2 => (G.below _ (List.mem_of_getElem? h1) _ (List.mem_of_getElem? h2)).2
    have new : ∀ {k : Nat} {i : Int}, l[k]? = some i → (w.strs.array.length : Int) ≤ i :=
      fun h2 => (hn.1 _ (List.mem_of_getElem? h2)).1
    intro j a j' a' x x' i e1 e2 e3 e4
    rw [getElem?_snoc] at e1 e2
    split at e1
    · rename_i hj
      split at e2
      · rename_i hj'
        cases e1; cases e2
        exact ⟨hj.trans hj'.symm, pairwise_lt_inj hn.2 e3 e4⟩
      · cases e1
        have := old e2 e4
        have := new e3
        omega
    · split at e2
      · cases e2
        have := old e1 e3
        have := new e4
        omega
      · exact G.once j a j' a' x x' i e1 e2 e3 e4
  · rw [hp, getElem?_snoc, List.length_map, G.len] at e1
    rw [getElem?_snoc] at e2
    rw [getElem?_snoc, G.size] at e3
    split at e1
    · rename_i hj
      rw [if_pos hj] at e2 e3
      cases e1; cases e2; cases e3; exact ⟨k, kc⟩
    · rename_i hj
      rw [if_neg hj] at e2 e3
      obtain ⟨h1, h2⟩ := G.each j p o x e1 e2 e3
      exact ⟨h.holding h1, CallsAll.mono h.strs.array h2⟩

/-! ## New strings -/

theorem World.internNew_fst (w : World) (v : JVal) : (w.internNew v).1 = w.strs.array.length := rfl

theorem World.internNew_length (w : World) (v : JVal) : (w.internNew v).2.strs.array.length = w.strs.array.length + 1 := by
  simp [World.internNew, StrTable.addUnchecked]

theorem World.Same.grown {w w' : World} (h : w.Same w') : w.strs.array.length ≤ w'.strs.array.length := h.later.grown

theorem World.internAllNew_calls : ∀ (vs : List JVal) (w : World),
    (w.internAllNew vs).2.strs.CallsAll (w.internAllNew vs).1 vs ∧
      NewIds (w.internAllNew vs).1 w.strs.array.length (w.internAllNew vs).2.strs.array.length
  | [], w => ⟨.nil, fun i h => by simp [World.internAllNew] at h, .nil⟩
  | v :: vs, w => by
    obtain ⟨h1, h2, h3⟩ := World.internAllNew_calls vs (w.internNew v).2
    have h4 := w.internNew_length v
    have h5 := (World.internAllNew_same (w.internNew v).2 vs).grown
    simp only [World.internAllNew]
    refine ⟨.cons ((w.internNew_calls v).mono (World.internAllNew_same _ vs).strs) h1, ?_, ?_⟩
    · intro i hi
      rcases List.mem_cons.1 hi with rfl | hi
      · rw [World.internNew_fst]; omega
      · have := h2 i hi; omega
    · refine .cons (fun i hi => ?_) h3
      have := h2 i hi
      rw [World.internNew_fst]; omega

theorem NewIds.one {w w' : World} (v : JVal) (h : (w.internNew v).2.strs.array.length ≤ w'.strs.array.length) :
    NewIds [(w.internNew v).1] w.strs.array.length w'.strs.array.length := by
  refine ⟨fun i hi => ?_, by simp⟩
  rw [List.mem_singleton.1 hi, World.internNew_fst]
  rw [World.internNew_length] at h
  omega

/-! ## Statements -/

theorem World.Ledger.newRaw {w w' : World} {A : AHeap} {st : List JThing} {made : List JOp} {L : List (List Int)}
    (G : w.Ledger made L) (I : w.Inv A st) {v : Str} (e : w.newRaw v = .ok w') :
    w'.Ledger (made ++ [.newRaw v]) (L ++ [[]]) := by
  have none : ∀ a b, NewIds [] a b := fun a b => ⟨fun i h => (by cases h), .nil⟩
  simp only [World.newRaw] at e
  split at e
  · rename_i p hp
    cases e
    exact G.push (w' := { w with objs := w.objs ++ [⟨p, .raw v⟩] }) ⟨⟨[], by simp⟩, .rfl' _⟩ (n := p) (by simp) (none _ _)
      rfl .nil
  · simp only [Except.map_ok_iff] at e
    obtain ⟨w1, h1, rfl⟩ := e
    obtain ⟨k1, k2, k3, k4⟩ := World.create_label I rfl h1
    exact G.push (w' := { w1 with raws := (v, w.heap.length) :: w1.raws }) ⟨k1.log, k1.strs⟩ k3 (op := .newRaw v)
      (none _ _) rfl .nil

theorem World.Ledger.newOriginal {w w' : World} {A : AHeap} {st : List JThing} {made : List JOp} {L : List (List Int)}
    (G : w.Ledger made L) (I : w.Inv A st) {v n : Str} (e : w.newOriginal v n = .ok w') :
    ∃ l, w'.Ledger (made ++ [.newOriginal v n]) (L ++ [l]) := by
  simp only [World.newOriginal] at e
  have s1 := w.internNew_same (some v)
  have s2 := (w.internNew (some v)).2.intern_same (some n)
  have I2 := I.same (s1.trans s2)
  have hc := w.internNew_calls (some v)
  have fin : ∀ w1 : World, ((w.internNew (some v)).2.intern (some n)).2.create
      (.newOriginal v ((w.internNew (some v)).2.intern (some n)).1 (w.internNew (some v)).1) (.original v) = .ok w1 →
      ∀ bs, World.Ledger { w1 with boots := bs } (made ++ [.newOriginal v n]) (L ++ [[(w.internNew (some v)).1]]) := by
    intro w1 h1 bs
    obtain ⟨k1, k2, k3, k4⟩ := World.create_label I2 rfl h1
    have k := (s1.trans s2).later.trans k1
    refine G.push (w' := { w1 with boots := bs }) ⟨k.log, k.strs⟩ (n := A.length) k3
      (NewIds.one (w' := { w1 with boots := bs }) (some v) (s2.later.trans k1).grown) ⟨_, _, k4, rfl⟩ ?_
    exact .cons (hc.mono (s2.later.trans k1).strs.array) .nil
  generalize hp : w.internNew (some v) = p at *
  generalize hq : p.2.intern (some n) = q at *
  split at e
  · split at e
    · rename_i ptr hb
      exfalso
      have hmem := lookup_pair_mem hb
      rw [s2.boots, s1.boots] at hmem
      have := I.boots _ hmem
      rw [← hp] at this
      simp [World.internNew, StrTable.addUnchecked] at this
    · simp only [Except.map_ok_iff] at e
      obtain ⟨w1, h1, rfl⟩ := e
      exact ⟨_, fin w1 h1 _⟩
  · exact ⟨_, fin w' e w'.boots⟩

theorem World.Ledger.newL2l {w w' : World} {A : AHeap} {st : List JThing} {made : List JOp} {L : List (List Int)}
    (G : w.Ledger made L) (I : w.Inv A st) {v n o : Str} (e : w.newL2l v n o = .ok w') :
    ∃ l, w'.Ledger (made ++ [.newL2l v n o]) (L ++ [l]) := by
  have s1 := w.intern_same (some n)
  have s2 := (w.intern (some n)).2.internNew_same (some o)
  obtain ⟨k1, k2, k3, k4⟩ := World.create_label (I.same (s1.trans s2)) rfl e
  have G1 := G.later s1.later rfl
  exact ⟨_, G1.push (s2.later.trans k1) k3 (NewIds.one (w := (w.intern (some n)).2) (some o) k1.grown) ⟨_, _, k4, rfl⟩
    (.cons (((w.intern (some n)).2.internNew_calls (some o)).mono k1.strs.array) .nil)⟩

theorem World.giveData_calls (w : World) (ss cs ns : List JVal) (mp : Str) :
    ∃ d, (w.giveData ss cs ns mp).1 = ⟨some d, none⟩ ∧
      (w.giveData ss cs ns mp).2.strs.CallsAll d.contents cs ∧
      NewIds d.contents w.strs.array.length (w.giveData ss cs ns mp).2.strs.array.length := by
  have g1 := (World.internAll_same w ss).grown
  obtain ⟨h1, h2, h3⟩ := World.internAllNew_calls cs (w.internAll ss).2
  have g3 := World.internAll_same ((w.internAll ss).2.internAllNew cs).2 ns
  refine ⟨_, rfl, CallsAll.mono g3.strs h1, fun i hi => ?_, h3⟩
  have h4 := h2 i hi
  have h5 := g3.grown
  show _ ∧ i < ((((w.internAll ss).2.internAllNew cs).2.internAll ns).2.strs.array.length : Int)
  omega

theorem World.Ledger.newSms {w w' : World} {A : AHeap} {st : List JThing} {made : List JOp} {L : List (List Int)}
    (G : w.Ledger made L) (I : w.Inv A st) {v n : Str} {map : MapArg} {orig : Option Str}
    {inner : Option MapArg} (e : w.newSms v n map orig inner = .ok w') :
    ∃ l, w'.Ledger (made ++ [.newSms v n map orig inner]) (L ++ [l]) := by
  simp only [World.newSms, Except.bind_ok_iff] at e
  obtain ⟨m, h1, i, h2, h3⟩ := e
  have s0 := w.internNew_same (some v)
  have s01 := (w.internNew (some v)).2.intern_same (some n)
  have s2 := World.give_same h1
  have s3 : m.2.Same i.2 := by
    refine World.Same.trans ?_ (World.giveInner_same h2)
    cases truthy orig with
    | none => exact .rfl' _
    | some s => exact World.internNew_same _ _
  have s := (s0.trans s01).trans (s2.trans s3)
  obtain ⟨k1, k2, k3, k4⟩ := World.create_label (I.same s) rfl h3
  rw [s.objs] at k3
  cases map with
  | emitted k =>
    exact ⟨[], G.push (s.later.trans k1) k3 ⟨fun i h => (by cases h), .nil⟩ rfl .nil⟩
  | plain ss cs ns mp =>
    simp only [World.give, Except.ok.injEq] at h1
    obtain ⟨d, hd1, hd2, hd3, hd4⟩ := World.giveData_calls ((w.internNew (some v)).2.intern (some n)).2 ss cs ns mp
    rw [h1] at hd1 hd2 hd3
    rw [hd1] at k4
    have later : m.2.Later w' := s3.later.trans k1
    have a1 := w.internNew_length (some v)
    have a2 := s01.grown
    have a3 := s2.grown
    have a4 := later.grown
    refine ⟨(w.internNew (some v)).1 :: d.contents, G.push (s.later.trans k1) k3 ⟨?_, ?_⟩ ⟨_, _, _, _, _, k4, rfl⟩ ?_⟩
    · intro j hj
      rcases List.mem_cons.1 hj with rfl | hj
      · rw [World.internNew_fst]; omega
      · have := hd3 j hj; omega
    · refine .cons (fun j hj => ?_) hd4
      have := hd3 j hj
      rw [World.internNew_fst]; omega
    · exact .cons ((w.internNew_calls (some v)).mono ((s01.trans s2).later.trans later).strs.array)
        (CallsAll.mono later.strs.array hd2)

theorem World.Ledger.create {w w' : World} {A : AHeap} {st : List JThing} {made : List JOp} {L : List (List Int)}
    (G : w.Ledger made L) (I : w.Inv A st) {op : Op} {k : JKind} (hn : isNew op = true)
    (e : w.create op k = .ok w') {j : JOp} (hj : ∀ c, Holding c [] j) (hb : Spec.JOp.brings j = []) :
    w'.Ledger (made ++ [j]) (L ++ [[]]) := by
  obtain ⟨k1, k2, k3, k4⟩ := World.create_label I hn e
  exact G.push k1 k3 ⟨fun i h => (by cases h), .nil⟩ (hj _) (by rw [hb]; exact .nil)

theorem JOp.run_ledger {w w' : World} {A : AHeap} {st : List JThing} {made : List JOp} {L : List (List Int)}
    (G : w.Ledger made L) (I : w.Inv A st) {op : JOp} {a : JAnswer} (e : op.run w = .ok (a, w')) :
    ∃ L', w'.Ledger (made ++ [op].filter Spec.JOp.makes) L' := by
  have steps := JOp.run_steps w op
  rw [e] at steps
  obtain ⟨l, hl, -, -⟩ := steps
  have quiet : w'.strs = w.strs → w'.objs = w.objs → ∃ L', w'.Ledger made L' := fun h1 h2 =>
    ⟨L, G.later ⟨⟨l, hl⟩, .of_eq h1⟩ (by rw [h2])⟩
  cases op with
  | newRaw v =>
    simp only [JOp.run, Except.map_ok_iff] at e
    obtain ⟨_, h, h2⟩ := e; cases h2; exact ⟨_, G.newRaw I h⟩
  | newOriginal v n =>
    simp only [JOp.run, Except.map_ok_iff] at e
    obtain ⟨_, h, h2⟩ := e; cases h2; obtain ⟨x, h⟩ := G.newOriginal I h; exact ⟨_, h⟩
  | newL2l v n o =>
    simp only [JOp.run, Except.map_ok_iff] at e
    obtain ⟨_, h, h2⟩ := e; cases h2; obtain ⟨x, h⟩ := G.newL2l I h; exact ⟨_, h⟩
  | newSms v n m o i =>
    simp only [JOp.run, Except.map_ok_iff] at e
    obtain ⟨_, h, h2⟩ := e; cases h2; obtain ⟨x, h⟩ := G.newSms I h; exact ⟨_, h⟩
  | newPrefix p c =>
    simp only [JOp.run, Except.bind_ok_iff, Except.map_ok_iff] at e
    obtain ⟨s, hs, _, h, h2⟩ := e; cases h2
    exact ⟨_, G.create I rfl h (fun _ => rfl) rfl⟩
  | newReplace c =>
    simp only [JOp.run, Except.bind_ok_iff, Except.map_ok_iff] at e
    obtain ⟨s, hs, _, h, h2⟩ := e; cases h2
    exact ⟨_, G.create I rfl h (fun _ => rfl) rfl⟩
  | newConcat items =>
    simp only [JOp.run, Except.bind_ok_iff, Except.map_ok_iff] at e
    obtain ⟨w1, h, w2, h1, h2⟩ := e; cases h2
    have G1 : w1.Ledger (made ++ [.newConcat items]) _ := G.create I rfl h (fun _ => rfl) rfl
    have := World.addItems_ptrs h1
    exact ⟨_, G1.later this.1 this.2⟩
  | add j item =>
    simp only [JOp.run, Except.map_ok_iff] at e
    obtain ⟨_, h, h2⟩ := e; cases h2
    have := World.addItem_ptrs h
    exact ⟨L, by simpa [Spec.JOp.makes] using G.later this.1 this.2⟩
  | replace j x y t =>
    simp only [JOp.run] at e
    split at e
    · simp only [Except.map_ok_iff] at e
      obtain ⟨⟨_, _⟩, h, h2⟩ := e; cases h2
      simpa [Spec.JOp.makes] using quiet (World.call_strs h).1 (World.call_objs h)
    · cases e
  | insert j x t =>
    simp only [JOp.run] at e
    split at e
    · simp only [Except.map_ok_iff] at e
      obtain ⟨⟨_, _⟩, h, h2⟩ := e; cases h2
      simpa [Spec.JOp.makes] using quiet (World.call_strs h).1 (World.call_objs h)
    · cases e
  | source j =>
    simp only [JOp.run, Except.map_ok_iff] at e
    obtain ⟨⟨_, _⟩, h, h2⟩ := e; cases h2
    simpa [Spec.JOp.makes] using quiet (World.readSource_strs h).1 (World.readSource_objs h)
  | size j =>
    simp only [JOp.run, Except.map_ok_iff] at e
    obtain ⟨⟨_, _⟩, h, h2⟩ := e; cases h2
    simpa [Spec.JOp.makes] using quiet (World.readSize_strs h).1 (World.readSize_objs h)
  | sourceAndMap j c m =>
    simpa [Spec.JOp.makes] using quiet (World.emit_strs e).1 (World.emit_objs e)
  | hash j =>
    simp only [JOp.run, Except.map_ok_iff] at e
    obtain ⟨⟨_, _⟩, h, h2⟩ := e; cases h2
    have ho := World.hashObj_objs (w.objs.length + 1) w j
    rw [h] at ho
    simpa [Spec.JOp.makes] using quiet ((World.hash_strs _).1 _ _ _ _ h).1 ho
  | get k f =>
    simp only [JOp.run] at e
    split at e
    · cases e
    · simp only [Except.map_ok_iff] at e
      obtain ⟨_, h, h2⟩ := e; cases h2
      simpa [Spec.JOp.makes] using quiet rfl rfl
  | set k b =>
    simp only [JOp.run] at e
    split at e
    · cases e
    · cases e
      simpa [Spec.JOp.makes] using quiet rfl rfl

theorem World.runFrom_ledger : ∀ {ops : List JOp} {w w' : World} {A : AHeap} {st : List JThing}
    {made : List JOp} {L : List (List Int)}, w.Ledger made L → w.Inv A st → (∀ op ∈ ops, op.Proper) →
    w.runFrom ops = .ok w' → ∃ L', w'.Ledger (made ++ jmade ops) L'
  | [], _, _, _, _, _, L, G, _, _, e => by cases e; exact ⟨L, by simpa [jmade] using G⟩
  | op :: ops, w, w', A, st, made, L, G, I, hp, e => by
    simp only [World.runFrom, Except.bind_ok_iff] at e
    obtain ⟨⟨a, w1⟩, h1, h2⟩ := e
    obtain ⟨A1, I1⟩ := JOp.run_inv I (hp op (by simp)) h1
    obtain ⟨L1, G1⟩ := JOp.run_ledger G I h1
    have := World.runFrom_ledger G1 I1 (fun o ho => hp o (by simp [ho])) h2
    rw [List.append_assoc] at this
    simpa [jmade, ← List.filter_append] using this

theorem World.run_ledger {ops : List JOp} {w : World} (hp : ∀ op ∈ ops, op.Proper) (e : World.run ops = .ok w) :
    ∃ L, w.Ledger (jmade ops) L := by
  have := World.runFrom_ledger (made := []) (L := []) (w := World.empty)
    ⟨rfl, rfl, fun l h => (by cases h), fun j k j' k' l l' i h => (by simp at h), fun j p op l h => (by simp [World.empty] at h)⟩
    World.empty_inv hp e
  simpa using this

end WS
