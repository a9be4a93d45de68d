import Verif.Proofs.JsLog
import Verif.Proofs.JsApart
import Verif.Props.C56
/-! # Each JavaScript object points to the wasm object its own statement made -/

namespace WS
open Spec

/-- Does the statement make an object? -/
def Spec.JOp.makes : JOp → Bool
  | .newRaw _ | .newOriginal .. | .newL2l .. | .newSms .. | .newPrefix .. | .newReplace _ | .newConcat _ => true
  | _ => false

/-- The statements that make objects, in order: object `j` was made by the `j`-th of them. -/
def Spec.jmade (ops : List JOp) : List JOp := ops.filter Spec.JOp.makes

/-- The index stands for the string. -/
def StrTable.Calls (t : StrTable JVal) (i : Int) (v : JVal) : Prop := t.Has i ∧ t.name i = v

theorem StrTable.Calls.mono {t t' : StrTable JVal} (g : ∃ r, t'.array = t.array ++ r) {i : Int} {v : JVal}
    (h : t.Calls i v) : t'.Calls i v :=
  have k := StrTable.Has.mono g h.1
  ⟨k.1, k.2.trans h.2⟩

/-- The indices are those the table has for the strings. -/
def StrTable.Lists (t : StrTable JVal) (ids : List Int) (vs : List JVal) : Prop :=
  ids.length = vs.length ∧
    ∀ (k : Nat) (i : Int) (v : JVal), ids[k]? = some i → vs[k]? = some v → Canon t (· = v) i

theorem StrTable.Lists.mono {t t' : StrTable JVal} (g : t.Ext t') {ids : List Int} {vs : List JVal}
    (h : t.Lists ids vs) : t'.Lists ids vs :=
  ⟨h.1, fun k i v h1 h2 => (h.2 k i v h1 h2).grow g⟩

/-- The generator writes the data, and has it in order if no two positions are the same. -/
def Generator.Wrote (g : Generator) (d : SmData) : Prop :=
  g.Ok ∧ g.mappings.Truthful ∧
    ((g.mappings.sort.list.map Mapping.point).Pairwise Point.Lt → g.mappings.sort = g.mappings) ∧
    ∃ m g', g.toSourceMap = .ok (m, g') ∧ m.data = d

/-- What is handed to wasm is the data, or a generator that writes it. -/
def SmHolder.Writes (hd : SmHolder) (d : SmData) : Prop :=
  hd = ⟨some d, none⟩ ∨ ∃ g, hd.gen = some g ∧ (hd.data = none ∨ hd.data = some d) ∧ g.Wrote d

theorem SmHolder.Writes.getData {hd : SmHolder} {d : SmData} (h : hd.Writes d) :
    ∃ hd', hd.getData = .ok (d, hd') := by
  rcases h with rfl | ⟨g, h1, h2, -, -, -, m, g', h3, rfl⟩
  · exact ⟨_, rfl⟩
  · rcases h2 with h2 | h2
    · exact ⟨{ data := some m.data, gen := some g' }, by simp only [SmHolder.getData, h2, h1, h3]; rfl⟩
    · exact ⟨hd, by simp only [SmHolder.getData, h2]⟩

/-- The data given to wasm lists the strings. -/
def StrTable.Holds (t : StrTable JVal) (hd : SmHolder) (ss cs ns : List JVal) (mp : Str) : Prop :=
  ∃ d, hd.Writes d ∧ t.values d.sources = some ss ∧ d.mappings = mp ∧ t.Lists d.sources ss ∧
    t.Lists d.names ns ∧ t.values d.contents = some cs

theorem StrTable.Holds.mono {t t' : StrTable JVal} (g : t.Ext t') {hd : SmHolder} {ss cs ns : List JVal}
    {mp : Str} (h : t.Holds hd ss cs ns mp) : t'.Holds hd ss cs ns mp := by
  obtain ⟨d, h1, h2, h3, h4, h5, h6⟩ := h
  exact ⟨d, h1, StrTable.values_mono g.array h2, h3, h4.mono g, h5.mono g, StrTable.values_mono g.array h6⟩

/-- The index, if any, stands for the string, if any. -/
def StrTable.CallsOpt (t : StrTable JVal) (i : Option Int) (v : Option Str) : Prop :=
  (v = none → i = none) ∧ ∀ s, v = some s → ∃ k, i = some k ∧ t.Calls k (some s)

theorem StrTable.CallsOpt.mono {t t' : StrTable JVal} (g : ∃ r, t'.array = t.array ++ r) {i : Option Int}
    {v : Option Str} (h : t.CallsOpt i v) : t'.CallsOpt i v :=
  ⟨h.1, fun s e => by obtain ⟨k, h1, h2⟩ := h.2 s e; exact ⟨k, h1, h2.mono g⟩⟩

/-- The wasm constructor call fits the statement. -/
def Label (t : StrTable JVal) (c : Option Op) : JOp → Prop
  | .newRaw v => c = some (.newRaw v)
  | .newOriginal v n => ∃ i k, c = some (.newOriginal v i k) ∧ Canon t (· = some n) i ∧ t.Calls k (some v)
  | .newL2l v n o => ∃ i k, c = some (.newL2l v i k) ∧ Canon t (· = some n) i ∧ t.Calls k (some o)
  | .newSms v n m orig im => ∃ vi i hd o inner, c = some (.newSms v vi i hd o inner) ∧ Canon t (· = some n) i ∧
      (∀ ss cs ns mp, m = .plain ss cs ns mp → t.Holds hd ss cs ns mp) ∧ (im = none → inner = none) ∧
      (∀ ss cs ns mp, im = some (.plain ss cs ns mp) → ∃ ih, inner = some ih ∧ t.Holds ih ss cs ns mp) ∧
      t.CallsOpt o (truthy orig)
  | .newPrefix p _ => ∃ x, c = some (.newPrefix p x)
  | .newReplace _ => ∃ x, c = some (.newReplace x)
  | .newConcat _ => c = some .newConcat
  | _ => True

theorem Label.mono {t t' : StrTable JVal} (g : t.Ext t') {c c' : Option Op}
    (hc : ∀ o, c = some o → c' = some o) {op : JOp} (h : Label t c op) : Label t' c' op := by
  cases op with
  | newRaw v => exact hc _ h
  | newOriginal v n =>
    obtain ⟨i, k, h1, h2, h3⟩ := h
    exact ⟨i, k, hc _ h1, h2.grow g, h3.mono g.array⟩
  | newL2l v n o =>
    obtain ⟨i, k, h1, h2, h3⟩ := h
    exact ⟨i, k, hc _ h1, h2.grow g, h3.mono g.array⟩
  | newSms v n m o i =>
    obtain ⟨vi, j, hd, o', inner, h1, h2, h3, h4, h5, h6⟩ := h
    refine ⟨vi, j, hd, o', inner, hc _ h1, h2.grow g, fun ss cs ns mp e => (h3 ss cs ns mp e).mono g, h4,
      fun ss cs ns mp e => ?_, h6.mono g.array⟩
    obtain ⟨ih, k1, k2⟩ := h5 ss cs ns mp e
    exact ⟨ih, k1, k2.mono g⟩
  | newPrefix p x => obtain ⟨y, h⟩ := h; exact ⟨y, hc _ h⟩
  | newReplace x => obtain ⟨y, h⟩ := h; exact ⟨y, hc _ h⟩
  | newConcat x => exact hc _ h
  | _ => trivial

/-- Every object points to what its statement made. -/
structure World.Labels (w : World) (made : List JOp) : Prop where
  len : w.objs.length = made.length
  each : ∀ (j p : Nat) (op : JOp), (w.objs.map JObj.ptr)[j]? = some p → made[j]? = some op →
    Label w.strs (created w.log)[p]? op

theorem StrTable.Ext.trans {a b c : StrTable JVal} (h : a.Ext b) (h' : b.Ext c) : a.Ext c := by
  obtain ⟨⟨r, hr⟩, hi⟩ := h
  obtain ⟨⟨r', hr'⟩, hi'⟩ := h'
  exact ⟨⟨r ++ r', by rw [hr', hr, List.append_assoc]⟩, fun v k e => hi' v k (hi v k e)⟩

/-- Nothing but calls and strings were added. -/
structure World.Later (w w' : World) : Prop where
  log : ∃ l, w'.log = w.log ++ l
  strs : w.strs.Ext w'.strs

theorem World.Later.keep {w w' : World} (h : w.Later w') {p : Nat} {op : JOp}
    (k : Label w.strs (created w.log)[p]? op) : Label w'.strs (created w'.log)[p]? op := by
  obtain ⟨l, hl⟩ := h.log
  refine k.mono h.strs fun o e => ?_
  rw [hl, created, List.filter_append]
  exact getElem?_append_some e

theorem World.Labels.later {w w' : World} {made : List JOp} (L : w.Labels made) (h : w.Later w')
    (hp : w'.objs.map JObj.ptr = w.objs.map JObj.ptr) : w'.Labels made := by
  refine ⟨?_, fun j p op e1 e2 => h.keep (L.each j p op (hp ▸ e1) e2)⟩
  have := congrArg List.length hp
  simp only [List.length_map] at this
  rw [this]; exact L.len

theorem World.Labels.push {w w' : World} {made : List JOp} (L : w.Labels made) (h : w.Later w') {n : Nat}
    (hp : w'.objs.map JObj.ptr = w.objs.map JObj.ptr ++ [n]) {op : JOp}
    (k : Label w'.strs (created w'.log)[n]? op) : w'.Labels (made ++ [op]) := by
  have hlen := congrArg List.length hp
  simp only [List.length_map, List.length_append, List.length_cons, List.length_nil] at hlen
  refine ⟨by rw [hlen, L.len]; simp, fun j p o e1 e2 => ?_⟩
  rw [hp, getElem?_snoc, List.length_map, L.len] at e1
  rw [getElem?_snoc] at e2
  split at e1
  · rename_i hj
    rw [if_pos hj] at e2
    cases e1; cases e2; exact k
  · rename_i hj
    rw [if_neg hj] at e2
    exact h.keep (L.each j p o e1 e2)

theorem World.Same.later {w w' : World} (h : w.Same w') : w.Later w' :=
  ⟨⟨[], by simp [h.log]⟩, h.ext⟩

theorem World.Later.trans {a b c : World} (h : a.Later b) (h' : b.Later c) : a.Later c := by
  obtain ⟨l, hl⟩ := h.log
  obtain ⟨l', hl'⟩ := h'.log
  exact ⟨⟨l ++ l', by rw [hl', hl, List.append_assoc]⟩, h.strs.trans h'.strs⟩

/-- A constructor call. -/
theorem World.create_label {w w' : World} {A : AHeap} {st : List JThing} (I : w.Inv A st) {op : Op}
    {k : JKind} (hn : isNew op = true) (e : w.create op k = .ok w') :
    w.Later w' ∧ w'.strs = w.strs ∧ w'.objs.map JObj.ptr = w.objs.map JObj.ptr ++ [A.length] ∧
      (created w'.log)[A.length]? = some op := by
  simp only [World.create, Except.map_ok_iff] at e
  obtain ⟨⟨b, w1⟩, h1, rfl⟩ := e
  obtain ⟨h, hr, rfl⟩ := World.call_ok h1
  have hl : w.heap.length = A.length := I.abs.1.symm
  refine ⟨⟨⟨[op], rfl⟩, .rfl' _⟩, rfl, by simp [hl], ?_⟩
  show (created (w.log ++ [op]))[A.length]? = some op
  rw [created_snoc, if_pos hn, (stepAll_described I.log).length]
  simp

theorem World.strs_calls {t : StrTable JVal} {i : Int} {v : JVal} (h0 : 0 ≤ i) (h : t.array[i.toNat]? = some v) :
    t.Calls i v := by
  have : t.at i = some (some v) := by
    unfold StrTable.at
    rw [if_neg (by omega), h]
  exact ⟨⟨_, this⟩, by rw [StrTable.name, this]; rfl⟩

theorem World.intern_calls {w : World} (h : w.strs.Ok) (v : JVal) : (w.intern v).2.strs.Calls (w.intern v).1 v :=
  World.strs_calls (by simp [World.intern]) (by simpa [World.intern] using StrTable.add_at h v)

theorem World.internNew_calls (w : World) (v : JVal) : (w.internNew v).2.strs.Calls (w.internNew v).1 v :=
  World.strs_calls (by simp [World.internNew]) (by simp [World.internNew, StrTable.addUnchecked])

theorem Canon.calls {t : StrTable JVal} {i : Int} {v : JVal} (h : Canon t (· = v) i) : t.Calls i v := by
  obtain ⟨h0, v', hv, rfl, -⟩ := h
  exact World.strs_calls h0 hv

theorem World.intern_canon {w : World} (h : w.strs.Ok) (v : JVal) :
    Canon (w.intern v).2.strs (· = v) (w.intern v).1 :=
  ⟨by simp [World.intern], v, by simpa [World.intern] using StrTable.add_at h v, rfl,
    by simpa [World.intern] using StrTable.add_indexOf w.strs v⟩

theorem World.internAll_lists : ∀ {vs : List JVal} {w : World}, w.strs.Ok →
    (w.internAll vs).2.strs.Lists (w.internAll vs).1 vs
  | [], w, _ => ⟨rfl, fun k i v h => by simp [World.internAll] at h⟩
  | v :: vs, w, h => by
    have ih := World.internAll_lists (vs := vs) (w := (w.intern v).2) (h.add v)
    simp only [World.internAll]
    refine ⟨by simp [ih.1], fun k i x h1 h2 => ?_⟩
    cases k with
    | zero =>
      simp only [List.getElem?_cons_zero, Option.some.injEq] at h1 h2
      subst h1 h2
      exact (World.intern_canon h v).grow (World.internAll_same _ vs).ext
    | succ k => exact ih.2 k i x (by simpa using h1) (by simpa using h2)

theorem World.giveData_holds {w : World} (ok : w.strs.Ok) (ss cs ns : List JVal) (mp : Str) :
    (w.giveData ss cs ns mp).2.strs.Holds (w.giveData ss cs ns mp).1 ss cs ns mp := by
  have hv := (World.internAll_values (vs := ss) ok).2
  have hok := (World.internAll_values (vs := ss) ok).1
  have g2 := World.internAllNew_same (w.internAll ss).2 cs
  have g3 := World.internAll_same ((w.internAll ss).2.internAllNew cs).2 ns
  refine ⟨_, .inl rfl, StrTable.values_mono (g2.trans g3).strs hv, rfl,
    (World.internAll_lists ok).mono (g2.trans g3).ext, World.internAll_lists ?_,
    StrTable.values_mono g3.strs (World.internAllNew_values hok).2⟩
  exact (World.internAllNew_values hok).1

theorem StrTable.Calls.same {w w' : World} (s : w.Same w') {i : Int} {v : JVal} (h : w.strs.Calls i v) :
    w'.strs.Calls i v := h.mono s.strs

/-! ## Statements -/

theorem World.hashEach_objs {f : World → Nat → Except JErr (List Str × World)}
    (hf : ∀ w j, Post (fun p => p.2.objs = w.objs) (f w j)) :
    ∀ {cs : List JSrc} {w : World}, Post (fun p => p.2.objs = w.objs) (World.hashEach f w cs)
  | [], _ => rfl
  | .str s :: cs, w => by
    simp only [World.hashEach]
    exact (World.hashEach_objs hf).map fun _ h => h
  | .obj j :: cs, w => by
    simp only [World.hashEach]
    exact (hf w j).bind fun p hp => (World.hashEach_objs hf).map fun _ h => h.trans hp

theorem World.hashObj_objs (n : Nat) : ∀ (w : World) (j : Nat),
    Post (fun p => p.2.objs = w.objs) (World.hashObj n w j) := by
  induction n with
  | zero => intro w j; trivial
  | succ n ih =>
    intro w j
    simp only [World.hashObj]
    split
    · trivial
    · split
      · exact rfl
      · exact rfl
      · exact rfl
      · exact rfl
      · exact (World.hashEach_objs ih).map fun _ h => h
      · refine Post.map (P := fun p => p.2.objs = w.objs) ?_ fun _ h => h
        cases h : w.readSource j with
        | error => trivial
        | ok p => exact World.readSource_objs h
      · exact World.hashEach_objs ih

theorem World.addItem_ptrs {w w' : World} {j : Nat} {i : JSrc} (e : w.addItem j i = .ok w') :
    w.Later w' ∧ w'.objs.map JObj.ptr = w.objs.map JObj.ptr := by
  simp only [World.addItem] at e
  split at e
  · rename_i ptr cs ho
    simp only [Except.bind_ok_iff, Except.map_ok_iff] at e
    obtain ⟨s, hs, ⟨ans, w1⟩, h1, rfl⟩ := e
    obtain ⟨h, hr, rfl⟩ := World.call_ok h1
    refine ⟨⟨⟨_, rfl⟩, .rfl' _⟩, ?_⟩
    apply List.ext_getElem?
    intro k
    rw [List.getElem?_map, List.getElem?_map, List.getElem?_set]
    split
    · rename_i hk; subst hk
      rw [ho, if_pos (List.getElem?_eq_some_iff.1 ho).1]
      rfl
    · rfl
  · cases e

theorem World.addItems_ptrs : ∀ {is : List JSrc} {w w' : World} {j : Nat}, w.addItems j is = .ok w' →
    w.Later w' ∧ w'.objs.map JObj.ptr = w.objs.map JObj.ptr
  | [], w, w', j, e => by cases e; exact ⟨(World.Same.rfl' w).later, rfl⟩
  | i :: is, w, w', j, e => by
    simp only [World.addItems, Except.bind_ok_iff] at e
    obtain ⟨w1, h1, h2⟩ := e
    have k1 := World.addItem_ptrs h1
    have k2 := World.addItems_ptrs h2
    exact ⟨k1.1.trans k2.1, k2.2.trans k1.2⟩

theorem World.Labels.newRaw {w w' : World} {A : AHeap} {st : List JThing} {made : List JOp} (L : w.Labels made)
    (I : w.Inv A st) {v : Str} (e : w.newRaw v = .ok w') : w'.Labels (made ++ [.newRaw v]) := by
  simp only [World.newRaw] at e
  split at e
  · rename_i p hp
    cases e
    refine L.push (w' := { w with objs := w.objs ++ [⟨p, .raw v⟩] }) ⟨⟨[], by simp⟩, .rfl' _⟩ (n := p) (by simp) ?_
    show (created w.log)[p]? = _
    have hA := I.raws v p hp
    have D := stepAll_described I.log p
    rw [hA] at D
    cases hc : (created w.log)[p]? with
    | none => rw [hc] at D; cases D
    | some op =>
      rw [hc] at D
      have D : some (AObj.raw v) = objOf w.log p op := D
      cases op <;> simp [objOf] at D
      rw [D]
  · simp only [Except.map_ok_iff] at e
    obtain ⟨w1, h1, rfl⟩ := e
    obtain ⟨k1, k2, k3, k4⟩ := World.create_label I rfl h1
    exact L.push (w' := { w1 with raws := (v, w.heap.length) :: w1.raws }) ⟨k1.log, k1.strs⟩ k3 (op := .newRaw v) k4

theorem World.Labels.newOriginal {w w' : World} {A : AHeap} {st : List JThing} {made : List JOp}
    (L : w.Labels made) (I : w.Inv A st) (ok : w.strs.Ok) {v n : Str} (e : w.newOriginal v n = .ok w') :
    w'.Labels (made ++ [.newOriginal v n]) := by
  simp only [World.newOriginal] at e
  have s1 := w.internNew_same (some v)
  have s2 := (w.internNew (some v)).2.intern_same (some n)
  have I2 := I.same (s1.trans s2)
  have L2 := L.later (s1.trans s2).later rfl
  have hc := World.intern_canon (w := (w.internNew (some v)).2) (ok.addUnchecked _) (some n)
  have hv := (w.internNew_calls (some v)).mono s2.ext.array
  generalize hp : w.internNew (some v) = p at *
  generalize hq : p.2.intern (some n) = q at *
  split at e
  · split at e
    · rename_i ptr hb
      exfalso
      have hmem := lookup_pair_mem hb
      rw [s2.boots, s1.boots] at hmem
      have := I.boots _ hmem
      rw [← hp] at this
      simp [World.internNew, StrTable.addUnchecked] at this
    · simp only [Except.map_ok_iff] at e
      obtain ⟨w1, h1, rfl⟩ := e
      obtain ⟨k1, k2, k3, k4⟩ := World.create_label I2 rfl h1
      exact L2.push (w' := { w1 with boots := (p.1.toNat, q.2.heap.length) :: w1.boots }) ⟨k1.log, k1.strs⟩ k3 (op := .newOriginal v n) ⟨_, _, k4, hc.grow k1.strs, hv.mono k1.strs.array⟩
  · obtain ⟨k1, k2, k3, k4⟩ := World.create_label I2 rfl e
    exact L2.push k1 k3 ⟨_, _, k4, hc.grow k1.strs, hv.mono k1.strs.array⟩

theorem World.Labels.newL2l {w w' : World} {A : AHeap} {st : List JThing} {made : List JOp}
    (L : w.Labels made) (I : w.Inv A st) (ok : w.strs.Ok) {v n o : Str} (e : w.newL2l v n o = .ok w') :
    w'.Labels (made ++ [.newL2l v n o]) := by
  have s1 := w.intern_same (some n)
  have s2 := (w.intern (some n)).2.internNew_same (some o)
  have L2 := L.later (s1.trans s2).later rfl
  obtain ⟨k1, k2, k3, k4⟩ := World.create_label (I.same (s1.trans s2)) rfl e
  exact L2.push k1 k3 ⟨_, _, k4, ((World.intern_canon ok (some n)).grow s2.ext).grow k1.strs,
    (World.internNew_calls _ _).mono k1.strs.array⟩

theorem World.Labels.newSms {w w' : World} {A : AHeap} {st : List JThing} {made : List JOp}
    (L : w.Labels made) (I : w.Inv A st) (ok : w.strs.Ok) {v n : Str} {map : MapArg} {orig : Option Str}
    {inner : Option MapArg} (e : w.newSms v n map orig inner = .ok w') :
    w'.Labels (made ++ [.newSms v n map orig inner]) := by
  simp only [World.newSms, Except.bind_ok_iff] at e
  obtain ⟨m, h1, i, h2, h3⟩ := e
  have s1 := (w.internNew_same (some v)).trans ((w.internNew (some v)).2.intern_same (some n))
  have ok1 : ((w.internNew (some v)).2.intern (some n)).2.strs.Ok := (ok.addUnchecked _).add _
  have s2 := World.give_same h1
  have s3 : m.2.Same i.2 := by
    refine World.Same.trans ?_ (World.giveInner_same h2)
    cases truthy orig with
    | none => exact .rfl' _
    | some s => exact World.internNew_same _ _
  have s := s1.trans (s2.trans s3)
  have L2 := L.later s.later (by rw [s.objs])
  obtain ⟨k1, k2, k3, k4⟩ := World.create_label (I.same s) rfl h3
  have hn : Canon ((w.internNew (some v)).2.intern (some n)).2.strs (· = some n)
      ((w.internNew (some v)).2.intern (some n)).1 :=
    World.intern_canon (w := (w.internNew (some v)).2) (ok.addUnchecked _) (some n)
  have ho := World.giveInner_same h2
  refine L2.push k1 k3 ⟨_, _, _, _, _, k4, (hn.grow (s2.trans s3).ext).grow k1.strs, ?_, ?_, ?_, ?_⟩
  · intro ss cs ns mp hm
    subst hm
    simp only [World.give, Except.ok.injEq] at h1
    rw [← h1] at s3 ⊢
    exact ((World.giveData_holds ok1 ss cs ns mp).mono s3.ext).mono k1.strs
  · intro hi
    subst hi
    simp only [World.giveInner, Except.ok.injEq] at h2
    rw [← h2]
  · intro ss cs ns mp hi
    subst hi
    simp only [World.giveInner, World.give, Except.map, Except.ok.injEq] at h2
    rw [← h2] at k1 ⊢
    refine ⟨_, rfl, ((World.giveData_holds ?_ ss cs ns mp)).mono k1.strs⟩
    have okm : m.2.strs.Ok := World.give_ok ok1 h1
    cases truthy orig with
    | none => exact okm
    | some s => exact okm.addUnchecked _
  · refine StrTable.CallsOpt.mono k1.strs.array ?_
    cases ht : truthy orig with
    | none => exact ⟨fun _ => rfl, fun s e => by cases e⟩
    | some s =>
      rw [ht] at ho
      exact ⟨fun e => by (cases e), fun _ e => by cases e; exact ⟨_, rfl, (World.internNew_calls _ _).mono ho.ext.array⟩⟩

theorem World.Labels.create {w w' : World} {A : AHeap} {st : List JThing} {made : List JOp}
    (L : w.Labels made) (I : w.Inv A st) {op : Op} {k : JKind} (hn : isNew op = true)
    (e : w.create op k = .ok w') {j : JOp} (hj : ∀ t, Label t (some op) j) : w'.Labels (made ++ [j]) := by
  obtain ⟨k1, k2, k3, k4⟩ := World.create_label I hn e
  exact L.push k1 k3 (by rw [k4]; exact hj _)

theorem JOp.run_labels {w w' : World} {A : AHeap} {st : List JThing} {made : List JOp}
    (L : w.Labels made) (I : w.Inv A st) (ok : w.strs.Ok) {op : JOp} {a : JAnswer}
    (e : op.run w = .ok (a, w')) : w'.Labels (made ++ [op].filter Spec.JOp.makes) := by
  have steps := JOp.run_steps w op
  rw [e] at steps
  obtain ⟨l, hl, -, -⟩ := steps
  have quiet : w'.strs = w.strs → w'.objs = w.objs → w'.Labels made := fun h1 h2 =>
    L.later ⟨⟨l, hl⟩, .of_eq h1⟩ (by rw [h2])
  cases op with
  | newRaw v =>
    simp only [JOp.run, Except.map_ok_iff] at e
    obtain ⟨_, h, h2⟩ := e; cases h2; exact L.newRaw I h
  | newOriginal v n =>
    simp only [JOp.run, Except.map_ok_iff] at e
    obtain ⟨_, h, h2⟩ := e; cases h2; exact L.newOriginal I ok h
  | newL2l v n o =>
    simp only [JOp.run, Except.map_ok_iff] at e
    obtain ⟨_, h, h2⟩ := e; cases h2; exact L.newL2l I ok h
  | newSms v n m o i =>
    simp only [JOp.run, Except.map_ok_iff] at e
    obtain ⟨_, h, h2⟩ := e; cases h2; exact L.newSms I ok h
  | newPrefix p c =>
    simp only [JOp.run, Except.bind_ok_iff, Except.map_ok_iff] at e
    obtain ⟨s, hs, _, h, h2⟩ := e; cases h2
    exact L.create I rfl h fun _ => ⟨_, rfl⟩
  | newReplace c =>
    simp only [JOp.run, Except.bind_ok_iff, Except.map_ok_iff] at e
    obtain ⟨s, hs, _, h, h2⟩ := e; cases h2
    exact L.create I rfl h fun _ => ⟨_, rfl⟩
  | newConcat items =>
    simp only [JOp.run, Except.bind_ok_iff, Except.map_ok_iff] at e
    obtain ⟨w1, h, w2, h1, h2⟩ := e; cases h2
    have L1 : w1.Labels (made ++ [.newConcat items]) := L.create I rfl h fun _ => rfl
    have := World.addItems_ptrs h1
    exact L1.later this.1 this.2
  | add j item =>
    simp only [JOp.run, Except.map_ok_iff] at e
    obtain ⟨_, h, h2⟩ := e; cases h2
    have := World.addItem_ptrs h
    simpa [Spec.JOp.makes] using L.later this.1 this.2
  | replace j x y t =>
    simp only [JOp.run] at e
    split at e
    · simp only [Except.map_ok_iff] at e
      obtain ⟨⟨_, _⟩, h, h2⟩ := e; cases h2
      simpa [Spec.JOp.makes] using quiet (World.call_strs h).1 (World.call_objs h)
    · cases e
  | insert j x t =>
    simp only [JOp.run] at e
    split at e
    · simp only [Except.map_ok_iff] at e
      obtain ⟨⟨_, _⟩, h, h2⟩ := e; cases h2
      simpa [Spec.JOp.makes] using quiet (World.call_strs h).1 (World.call_objs h)
    · cases e
  | source j =>
    simp only [JOp.run, Except.map_ok_iff] at e
    obtain ⟨⟨_, _⟩, h, h2⟩ := e; cases h2
    simpa [Spec.JOp.makes] using quiet (World.readSource_strs h).1 (World.readSource_objs h)
  | size j =>
    simp only [JOp.run, Except.map_ok_iff] at e
    obtain ⟨⟨_, _⟩, h, h2⟩ := e; cases h2
    simpa [Spec.JOp.makes] using quiet (World.readSize_strs h).1 (World.readSize_objs h)
  | sourceAndMap j c m =>
    simpa [Spec.JOp.makes] using quiet (World.emit_strs e).1 (World.emit_objs e)
  | hash j =>
    simp only [JOp.run, Except.map_ok_iff] at e
    obtain ⟨⟨_, _⟩, h, h2⟩ := e; cases h2
    have ho := World.hashObj_objs (w.objs.length + 1) w j
    rw [h] at ho
    simpa [Spec.JOp.makes] using quiet ((World.hash_strs _).1 _ _ _ _ h).1 ho
  | get k f =>
    simp only [JOp.run] at e
    split at e
    · cases e
    · simp only [Except.map_ok_iff] at e
      obtain ⟨_, h, h2⟩ := e; cases h2
      simpa [Spec.JOp.makes] using quiet rfl rfl
  | set k b =>
    simp only [JOp.run] at e
    split at e
    · cases e
    · cases e
      simpa [Spec.JOp.makes] using quiet rfl rfl

theorem World.runFrom_labels {U : Pool} : ∀ {ops : List JOp} {w w' : World} {A : AHeap} {st : List JThing}
    {made : List JOp}, w.Labels made → w.Inv A st → w.Within U → (∀ op ∈ ops, op.Proper) →
    (∀ op ∈ ops, ∀ f v, v ∈ op.supply f → v ∈ U f) → w.runFrom ops = .ok w' → w'.Labels (made ++ jmade ops)
  | [], _, _, _, _, _, L, _, _, _, _, e => by cases e; simpa [jmade] using L
  | op :: ops, w, w', A, st, made, L, I, W, hp, hU, e => by
    simp only [World.runFrom, Except.bind_ok_iff] at e
    obtain ⟨⟨a, w1⟩, h1, h2⟩ := e
    obtain ⟨A1, I1⟩ := JOp.run_inv I (hp op (by simp)) h1
    have W1 := JOp.run_within W (hU op (by simp))
    rw [h1] at W1
    have := World.runFrom_labels (JOp.run_labels L I W.strs h1) I1 W1 (fun o ho => hp o (by simp [ho]))
      (fun o ho => hU o (by simp [ho])) h2
    rw [List.append_assoc] at this
    simpa [jmade, ← List.filter_append] using this

theorem World.run_labels {ops : List JOp} {w : World} (hp : ∀ op ∈ ops, op.Proper) (e : World.run ops = .ok w) :
    w.Labels (jmade ops) := by
  have := World.runFrom_labels (made := []) (U := supplied ops) (w := World.empty)
    ⟨rfl, fun j p op h => by simp [World.empty] at h⟩ World.empty_inv World.empty_within hp
    (fun op ho f v hv => List.mem_flatMap.2 ⟨op, ho, hv⟩) e
  simpa using this

end WS
