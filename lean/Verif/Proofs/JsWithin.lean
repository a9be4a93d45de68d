import Verif.Proofs.Within
import Verif.Proofs.JsEmitted
import Verif.Props.C24
/-! # Where the strings in emitted maps come from -/

namespace WS
open Spec

/-! ## Larger sets -/

/-- Every set is contained in the other's. -/
structure Dom.Sub (D E : Dom) : Prop where
  S : ∀ i, D.S i → E.S i
  C : ∀ i, D.C i → E.C i
  N : ∀ i, D.N i → E.N i

section
variable {D E : Dom} (L : D.Sub E)
include L

theorem Generator.In.mono {g : Generator} (h : g.In D) : g.In E :=
  ⟨fun m hm => ⟨fun s e => L.S _ ((h.maps m hm).source s e), fun s e => L.N _ ((h.maps m hm).name s e)⟩,
    fun p hp => L.S _ (h.sources p hp), fun p hp => L.N _ (h.names p hp),
    fun p hp => L.C _ (h.contents p hp)⟩

theorem SmHolder.In.mono {h : SmHolder} (H : h.In D) : h.In E :=
  ⟨fun d hd => ⟨fun s hs => L.S _ ((H.data d hd).sources s hs),
      fun s hs => L.C _ ((H.data d hd).contents s hs), fun s hs => L.N _ ((H.data d hd).names s hs)⟩,
    fun g hg => (H.gen g hg).mono L⟩

theorem Obj.In.mono {o : Obj} (h : o.In D) : o.In E := by
  cases o with
  | original => exact ⟨L.S _ h.1, L.C _ h.2⟩
  | l2l => exact ⟨L.S _ h.1, L.C _ h.2⟩
  | sms s =>
    have h : s.In D := h
    exact (⟨L.C _ h.value, L.S _ h.name, h.map.mono L, fun x hx => L.C _ (h.original x hx),
      fun i hi => (h.inner i hi).mono L⟩ : s.In E)
  | raw | prefixed | replace | concat => trivial

theorem Heap.In.mono {h : Heap} (H : Heap.In D h) : Heap.In E h := fun i o e => (H i o e).mono L

theorem SourceMap.In.mono {m : SourceMap} (h : m.In D) : m.In E :=
  ⟨fun s hs => L.S _ (h.sources s hs), fun s hs => L.C _ (h.contents s hs),
    fun s hs => L.N _ (h.names s hs)⟩

end

/-! ## The sets given by a string table -/

/-- The index stands for one of the values. -/
def Stands (t : StrTable JVal) (P : JVal → Prop) (i : Int) : Prop :=
  0 ≤ i ∧ ∃ v, t.array[i.toNat]? = some v ∧ P v

/-- The index is the one the table has for one of the values. -/
def Canon (t : StrTable JVal) (P : JVal → Prop) (i : Int) : Prop :=
  0 ≤ i ∧ ∃ v, t.array[i.toNat]? = some v ∧ P v ∧ t.indexOf v = some i.toNat

theorem Canon.stands {t : StrTable JVal} {P : JVal → Prop} {i : Int} (h : Canon t P i) : Stands t P i :=
  have ⟨h0, v, hv, hp, _⟩ := h
  ⟨h0, v, hv, hp⟩

abbrev Pool := JField → List JVal

/-- A source: one of the strings, or `null`. -/
def Pool.Src (U : Pool) (v : JVal) : Prop := v = none ∨ v ∈ U .sources

def dom (U : Pool) (t : StrTable JVal) : Dom where
  S i := i = -1 ∨ Canon t U.Src i
  C := Stands t (· ∈ U .contents)
  N := Canon t (· ∈ U .names)

theorem Stands.grow {t t' : StrTable JVal} (g : ∃ r, t'.array = t.array ++ r) {P : JVal → Prop}
    {i : Int} (h : Stands t P i) : Stands t' P i := by
  obtain ⟨r, hr⟩ := g
  obtain ⟨h0, v, hv, hp⟩ := h
  exact ⟨h0, v, by rw [hr]; exact getElem?_append_some hv, hp⟩

theorem Canon.grow {t t' : StrTable JVal} (g : t.Ext t') {P : JVal → Prop} {i : Int}
    (h : Canon t P i) : Canon t' P i := by
  obtain ⟨⟨r, hr⟩, hi⟩ := g
  obtain ⟨h0, v, hv, hp, hx⟩ := h
  exact ⟨h0, v, by rw [hr]; exact getElem?_append_some hv, hp, hi v _ hx⟩

theorem dom_grow (U : Pool) {t t' : StrTable JVal} (g : t.Ext t') :
    (dom U t).Sub (dom U t') :=
  ⟨fun _ h => h.imp id (Canon.grow g), fun _ h => Stands.grow g.array h, fun _ h => Canon.grow g h⟩

structure Emitted.Within (U : Pool) (D : Dom) (e : Emitted) : Prop where
  map : ∀ wm m, e.wasm = some wm → wm.map = some m → m.In D
  gen : ∀ wm g, e.wasm = some wm → wm.gen = some g → g.In D
  sources : ∀ l, e.sources = some l → ∀ v ∈ l, U.Src v
  contents : ∀ l, e.contents = some (some l) → ∀ v ∈ l, v ∈ U .contents
  names : ∀ l, e.names = some l → ∀ v ∈ l, v ∈ U .names

structure World.Within (U : Pool) (w : World) : Prop where
  strs : w.strs.Ok
  heap : Heap.In (dom U w.strs) w.heap
  maps : ∀ e ∈ w.maps, e.Within U (dom U w.strs)

variable {U : Pool}

theorem Emitted.Within.mono {D E : Dom} (L : D.Sub E) {e : Emitted} (h : e.Within U D) :
    e.Within U E :=
  ⟨fun wm m a b => (h.map wm m a b).mono L, fun wm m a b => (h.gen wm m a b).mono L, h.sources,
    h.contents, h.names⟩

/-! ## Results other than the exception of the string table -/

/-- A result with the property, or an exception other than `missing`. -/
def Fine {α : Type} (P : α → Prop) : Except JErr α → Prop
  | .ok a => P a
  | .error e => e ≠ .missing

theorem Fine.bind {α β : Type} {P : α → Prop} {Q : β → Prop} {x : Except JErr α}
    {f : α → Except JErr β} (h : Fine P x) (hf : ∀ a, P a → Fine Q (f a)) : Fine Q (x.bind f) := by
  cases x with
  | error e => exact h
  | ok a => exact hf a h

theorem Fine.map {α β : Type} {P : α → Prop} {Q : β → Prop} {x : Except JErr α} {f : α → β}
    (h : Fine P x) (hf : ∀ a, P a → Q (f a)) : Fine Q (x.map f) := by
  cases x with
  | error e => exact h
  | ok a => exact hf a h

/-! ## The string table -/

theorem World.Within.grow {w w' : World} (W : w.Within U) (ok : w'.strs.Ok)
    (g : w.strs.Ext w'.strs) (h : w'.heap = w.heap) (m : w'.maps = w.maps) :
    w'.Within U := by
  have L := dom_grow U g
  exact ⟨ok, by rw [h]; exact W.heap.mono L, fun e he => (W.maps e (m ▸ he)).mono L⟩

theorem World.Within.intern {w : World} (W : w.Within U) (v : JVal) :
    (w.intern v).2.Within U ∧ ∀ P : JVal → Prop, P v → Canon (w.intern v).2.strs P (w.intern v).1 :=
  ⟨W.grow (W.strs.add v) (World.intern_same w v).ext rfl rfl, fun P h =>
    ⟨by simp [World.intern], v, by simpa [World.intern] using StrTable.add_at W.strs v, h,
      by simpa [World.intern] using StrTable.add_indexOf w.strs v⟩⟩

theorem World.Within.internNew {w : World} (W : w.Within U) (v : JVal) :
    (w.internNew v).2.Within U ∧
    ∀ P : JVal → Prop, P v → Stands (w.internNew v).2.strs P (w.internNew v).1 :=
  ⟨W.grow (W.strs.addUnchecked v) (World.internNew_same w v).ext rfl rfl, fun P h =>
    ⟨by simp [World.internNew], v, by simp [World.internNew, StrTable.addUnchecked], h⟩⟩

theorem World.Within.internAll {P : JVal → Prop} : ∀ {vs : List JVal} {w : World}, w.Within U →
    (∀ v ∈ vs, P v) → (w.internAll vs).2.Within U ∧
      ∀ i ∈ (w.internAll vs).1, Canon (w.internAll vs).2.strs P i
  | [], w, W, _ => ⟨W, by simp [World.internAll]⟩
  | v :: vs, w, W, h => by
    have h1 := W.intern v
    have h2 := World.Within.internAll h1.1 (fun v hv => h v (List.mem_cons_of_mem _ hv))
    refine ⟨h2.1, fun i hi => ?_⟩
    rcases List.mem_cons.1 hi with rfl | hi
    · exact (h1.2 P (h v (List.mem_cons_self ..))).grow (World.internAll_same _ vs).ext
    · exact h2.2 i hi

theorem World.Within.internAllNew {P : JVal → Prop} : ∀ {vs : List JVal} {w : World}, w.Within U →
    (∀ v ∈ vs, P v) → (w.internAllNew vs).2.Within U ∧
      ∀ i ∈ (w.internAllNew vs).1, Stands (w.internAllNew vs).2.strs P i
  | [], w, W, _ => ⟨W, by simp [World.internAllNew]⟩
  | v :: vs, w, W, h => by
    have h1 := W.internNew v
    have h2 := World.Within.internAllNew h1.1 (fun v hv => h v (List.mem_cons_of_mem _ hv))
    refine ⟨h2.1, fun i hi => ?_⟩
    rcases List.mem_cons.1 hi with rfl | hi
    · exact (h1.2 P (h v (List.mem_cons_self ..))).grow (World.internAllNew_same _ vs).strs
    · exact h2.2 i hi

theorem World.Within.giveData {w : World} (W : w.Within U) {ss cs ns : List JVal} (m : Str)
    (hs : ∀ v ∈ ss, U.Src v) (hc : ∀ v ∈ cs, v ∈ U .contents) (hn : ∀ v ∈ ns, v ∈ U .names) :
    (w.giveData ss cs ns m).2.Within U ∧
    (w.giveData ss cs ns m).1.In (dom U (w.giveData ss cs ns m).2.strs) := by
  have h1 := World.Within.internAll W hs
  have h2 := World.Within.internAllNew h1.1 hc
  have h3 := World.Within.internAll h2.1 hn
  have g3 := (World.internAll_same ((w.internAll ss).2.internAllNew cs).2 ns).ext
  refine ⟨h3.1, fun d hd => ?_, fun g hg => (by cases hg)⟩
  cases hd
  exact ⟨fun i hi => .inr (((h1.2 i hi).grow (World.internAllNew_same _ cs).ext).grow g3),
    fun i hi => (h2.2 i hi).grow g3.array, fun i hi => h3.2 i hi⟩

theorem World.resolve_fine {w : World} {P : JVal → Prop} {ids : List Int}
    (h : ∀ i ∈ ids, i = -1 ∧ P none ∨ Stands w.strs P i) :
    Fine (fun l => ∀ v ∈ l, P v) (w.resolve ids) := by
  have : ∃ vs, w.strs.resolve ids = some vs ∧ ∀ v ∈ vs, P v.join := by
    induction ids with
    | nil => exact ⟨[], rfl, by simp⟩
    | cons i ids ih =>
      obtain ⟨vs, h1, h2⟩ := ih fun i hi => h i (List.mem_cons_of_mem _ hi)
      have : ∃ x, w.strs.at i = some x ∧ P x.join := by
        rcases h i (List.mem_cons_self ..) with ⟨rfl, hp⟩ | ⟨h0, v, hv, hp⟩
        · exact ⟨none, rfl, hp⟩
        · refine ⟨some v, ?_, hp⟩
          rw [StrTable.at, if_neg (by omega), hv]
      obtain ⟨x, h3, h4⟩ := this
      refine ⟨x :: vs, by simp [StrTable.resolve, h1, h3], fun v hv => ?_⟩
      rcases List.mem_cons.1 hv with rfl | hv
      · exact h4
      · exact h2 v hv
  obtain ⟨vs, h1, h2⟩ := this
  simp only [World.resolve, h1]
  intro v hv
  obtain ⟨x, hx, rfl⟩ := List.mem_map.1 hv
  exact h2 x hx

/-! ## Emitted maps -/

theorem Emitted.Within.data {D : Dom} {e : Emitted} (h : e.Within U D) :
    Fine (fun p => p.1.In D ∧ p.2.Within U D ∧ p.2.hasNames = e.hasNames) e.data := by
  simp only [Emitted.data]
  split
  · simp [Fine]
  · rename_i wm ew
    simp only [WasmMap.getMap]
    cases em : wm.map with
    | some m =>
      refine ⟨h.map wm m ew em, ⟨?_, ?_, h.sources, h.contents, h.names⟩, rfl⟩
      · intro wm' m' a b; cases a; exact h.map wm m' ew b
      · intro wm' m' a b; cases a; exact h.gen wm m' ew b
    | none =>
      cases eg : wm.gen with
      | none => simp [Fine]
      | some g =>
        dsimp only
        cases et : g.toSourceMap with
        | error p => simp [Fine]
        | ok p =>
          obtain ⟨m, g'⟩ := p
          have := (h.gen wm g ew eg).toSourceMap et
          refine ⟨this.1, ⟨?_, ?_, h.sources, h.contents, h.names⟩, rfl⟩
          · intro wm' m' a b; cases a; cases b; exact this.1
          · intro wm' m' a b; cases a; cases b; exact this.2

theorem Emitted.Within.getSources {w : World} {e : Emitted} (h : e.Within U (dom U w.strs)) :
    Fine (fun p => (∀ v ∈ p.1, U.Src v) ∧ p.2.Within U (dom U w.strs)) (e.getSources w) := by
  simp only [Emitted.getSources]
  split
  · exact ⟨h.sources _ ‹_›, h⟩
  · refine h.data.bind fun p hp => (World.resolve_fine (P := U.Src) ?_).map fun l hl => ⟨hl, ?_⟩
    · intro i hi
      rcases hp.1.sources i hi with h | h
      · exact .inl ⟨h, .inl rfl⟩
      · exact .inr h.stands
    · exact ⟨hp.2.1.map, hp.2.1.gen, fun l' e' => by cases e'; exact hl, hp.2.1.contents, hp.2.1.names⟩

theorem Emitted.Within.getContents {w : World} {e : Emitted} (h : e.Within U (dom U w.strs)) :
    Fine (fun p => (∀ l, p.1 = some l → ∀ v ∈ l, v ∈ U .contents) ∧ p.2.Within U (dom U w.strs))
      (e.getContents w) := by
  simp only [Emitted.getContents]
  split
  · rename_i c ec
    refine ⟨fun l e => ?_, h⟩
    dsimp only at e
    split at e
    · cases e; exact h.contents _ ec
    · cases e
  · refine h.data.bind fun p hp =>
      (World.resolve_fine (P := (· ∈ U .contents)) ?_).map fun l hl => ⟨?_, ?_⟩
    · intro i hi
      exact .inr (hp.1.contents i hi)
    · intro l' e
      dsimp only at e
      split at e
      · rename_i e1; cases e; cases e1; exact hl
      · cases e
    · refine ⟨hp.2.1.map, hp.2.1.gen, hp.2.1.sources, fun l' e => ?_, hp.2.1.names⟩
      dsimp only at e
      split at e
      · rename_i e1; cases e; cases e1; exact hl
      · cases e

theorem Emitted.Within.getMappings {D : Dom} {e : Emitted} (h : e.Within U D) :
    Fine (fun p => p.2.Within U D) e.getMappings := by
  simp only [Emitted.getMappings]
  split
  · exact h
  · refine h.data.map fun p hp => ?_
    exact ⟨hp.2.1.map, hp.2.1.gen, hp.2.1.sources, hp.2.1.contents, hp.2.1.names⟩

theorem Emitted.Within.getNames {w : World} {e : Emitted} (h : e.Within U (dom U w.strs)) :
    Fine (fun p => (∀ v ∈ p.1, v ∈ U .names) ∧ p.2.Within U (dom U w.strs)) (e.getNames w) := by
  simp only [Emitted.getNames]
  split
  · split
    · exact ⟨h.names _ ‹_›, h⟩
    · refine h.data.bind fun p hp =>
        (World.resolve_fine (P := (· ∈ U .names)) ?_).map fun l hl => ⟨hl, ?_⟩
      · intro i hi
        exact .inr (hp.1.names i hi).stands
      · exact ⟨hp.2.1.map, hp.2.1.gen, hp.2.1.sources, hp.2.1.contents,
          fun l' e' => by cases e'; exact hl⟩
  · exact ⟨by simp, h⟩

theorem Emitted.Within.getSource {D : Dom} {e : Emitted} (h : e.Within U D) :
    Fine (fun p => p.2.Within U D) e.getSource := by
  simp only [Emitted.getSource]
  split
  · exact h
  · split
    · simp [Fine]
    · rename_i ew
      exact ⟨h.map, h.gen, h.sources, h.contents, h.names⟩

/-- What may stand in a property. -/
def Pool.Allows (U : Pool) : JField → JVal → Prop
  | .sources, v => U.Src v
  | f, v => v ∈ U f

theorem Emitted.Within.get {w : World} {e : Emitted} (h : e.Within U (dom U w.strs)) (f : JField) :
    Fine (fun p => (∀ l, p.1 = .list l → ∀ v ∈ l, U.Allows f v) ∧ p.2.Within U (dom U w.strs))
      (e.get w f) := by
  cases f with
  | source => exact h.getSource.map fun p hp => ⟨fun l e => (by cases e), hp⟩
  | sources => exact h.getSources.map fun p hp => ⟨fun l e => by cases e; exact hp.1, hp.2⟩
  | contents =>
    refine h.getContents.map fun p hp => ⟨fun l e => ?_, hp.2⟩
    dsimp only at e
    split at e
    · cases e; exact hp.1 _ ‹_›
    · cases e
  | mappings => exact h.getMappings.map fun p hp => ⟨fun l e => (by cases e), hp⟩
  | names =>
    refine h.getNames.map fun p hp => ⟨fun l e => ?_, hp.2⟩
    dsimp only at e
    split at e
    · cases e; exact hp.1
    · cases e

theorem Emitted.Within.set {D : Dom} {e : Emitted} (h : e.Within U D) {a : JAssign}
    (ha : ∀ k v, v ∈ (JOp.set k a).supply a.field → v ∈ U a.field) : (e.set a).Within U D := by
  cases a with
  | source s => exact ⟨h.map, h.gen, h.sources, h.contents, h.names⟩
  | sources l =>
    exact ⟨h.map, h.gen, fun l' e' v hv => by cases e'; exact .inr (ha 0 v hv), h.contents, h.names⟩
  | contents l =>
    exact ⟨h.map, h.gen, h.sources, fun l' e' v hv => by cases e'; exact ha 0 v hv, h.names⟩
  | mappings s => exact ⟨h.map, h.gen, h.sources, h.contents, h.names⟩
  | names l =>
    simp only [Emitted.set]
    split
    · exact ⟨h.map, h.gen, h.sources, h.contents, fun l' e' v hv => by cases e'; exact ha 0 v hv⟩
    · exact ⟨h.map, h.gen, h.sources, h.contents, fun l' e' v hv => by cases e'; exact ha 0 v hv⟩

theorem World.Within.setMap {w : World} (W : w.Within U) {k : Nat} {e : Emitted}
    (h : e.Within U (dom U w.strs)) : ({ w with maps := w.maps.set k e } : World).Within U :=
  ⟨W.strs, W.heap, fun x hx => (List.mem_or_eq_of_mem_set hx).elim (W.maps x) (fun e => e ▸ h)⟩

theorem World.Within.pushMap {w : World} (W : w.Within U) {e : Emitted}
    (h : e.Within U (dom U w.strs)) : ({ w with maps := w.maps ++ [e] } : World).Within U :=
  ⟨W.strs, W.heap, fun x hx => by
    rcases List.mem_append.1 hx with hx | hx
    · exact W.maps x hx
    · cases List.mem_singleton.1 hx; exact h⟩

/-! ## Statements -/

theorem World.Within.call {w : World} (W : w.Within U) {op : Op} (ho : op.In (dom U w.strs)) :
    Fine (fun p => p.2.Within U ∧ p.1.In (dom U w.strs) ∧ p.2.strs = w.strs ∧ p.2.maps = w.maps)
      (w.call op) := by
  simp only [World.call]
  cases e : op.run w.heap with
  | error p => simp [Fine]
  | ok p =>
    obtain ⟨a, h⟩ := p
    have := Op.run_in W.heap ho e
    exact ⟨⟨W.strs, this.2, W.maps⟩, this.1, rfl, rfl⟩

theorem World.Within.create {w : World} (W : w.Within U) {op : Op} (ho : op.In (dom U w.strs))
    (k : JKind) : Fine (fun w' => w'.Within U) (w.create op k) :=
  (W.call ho).map fun _ hp => ⟨hp.1.strs, hp.1.heap, hp.1.maps⟩

theorem World.src_fine (w : World) (c : JSrc) : Fine (fun _ => True) (w.src c) := by
  cases c with
  | str s => trivial
  | obj j =>
    simp only [World.src]
    split <;> simp [Fine]

theorem World.Within.addItem {w : World} (W : w.Within U) (j : Nat) (i : JSrc) :
    Fine (fun w' => w'.Within U) (w.addItem j i) := by
  simp only [World.addItem]
  split
  · exact (w.src_fine i).bind fun s _ => (W.call (op := .add _ s) trivial).map fun _ hp =>
      ⟨hp.1.strs, hp.1.heap, hp.1.maps⟩
  · simp [Fine]

theorem World.Within.addItems {j : Nat} : ∀ {is : List JSrc} {w : World}, w.Within U →
    Fine (fun w' => w'.Within U) (w.addItems j is)
  | [], _, W => W
  | i :: _, _, W => (W.addItem j i).bind fun _ h => World.Within.addItems h

theorem World.Within.readSource {w : World} (W : w.Within U) (j : Nat) :
    Fine (fun p => p.2.Within U) (w.readSource j) := by
  simp only [World.readSource]
  split
  · simp [Fine]
  · split
    · exact W
    · refine (W.call (op := .source _) trivial).bind fun p hp => ?_
      split
      · exact hp.1
      · simp [Fine]

theorem World.Within.readSize {w : World} (W : w.Within U) (j : Nat) :
    Fine (fun p => p.2.Within U) (w.readSize j) := by
  simp only [World.readSize]
  split
  · simp [Fine]
  · split
    · exact W
    · refine (W.call (op := .size _) trivial).bind fun p hp => ?_
      split
      · exact hp.1
      · simp [Fine]

theorem World.Within.hashEach {f : World → Nat → Except JErr (List Str × World)}
    (hf : ∀ w j, w.Within U → Fine (fun p => p.2.Within U) (f w j)) :
    ∀ {cs : List JSrc} {w : World}, w.Within U →
    Fine (fun p => p.2.Within U) (World.hashEach f w cs)
  | [], _, W => W
  | .str s :: cs, w, W => by
    simp only [World.hashEach]
    exact (World.Within.hashEach hf W).map fun _ h => h
  | .obj j :: cs, w, W => by
    simp only [World.hashEach]
    exact (hf w j W).bind fun p hp => (World.Within.hashEach hf hp).map fun _ h => h

theorem World.Within.hashObj (n : Nat) : ∀ (w : World) (j : Nat), w.Within U →
    Fine (fun p => p.2.Within U) (World.hashObj n w j) := by
  induction n with
  | zero => intro w j _; simp [World.hashObj, Fine]
  | succ n ih =>
    intro w j W
    simp only [World.hashObj]
    split
    · simp [Fine]
    · split
      · exact W
      · exact W
      · exact W
      · exact W
      · exact (World.Within.hashEach ih W).map fun _ h => h
      · exact (W.readSource j).map fun _ h => h
      · exact World.Within.hashEach ih W

theorem World.Within.emit {w : World} (W : w.Within U) (j : Nat) (c m : Bool) :
    Fine (fun p => p.2.Within U) (w.emit j c m) := by
  simp only [World.emit]
  split
  · simp [Fine]
  · split
    · exact W
    · split
      · refine (W.call (op := .node _ _ _) trivial).bind fun p hp => ?_
        obtain ⟨a, w'⟩ := p
        obtain ⟨W', ha, hs, hm⟩ := hp
        dsimp only at ha hs hm W' ⊢
        split
        · rename_i n
          have hn : n.In (dom U w.strs) := ha
          have := W'.pushMap (e := Emitted.new ⟨(n.toStringWithGenerator none none).1, none,
            some (n.toStringWithGenerator none none).2⟩ true)
            ⟨fun wm m a b => (by cases a; cases b),
             fun wm g a b => (by
              cases a; cases b; rw [hs]; exact toStringWithGenerator_in hn none none),
             fun l e => (by cases e), fun l e => (by cases e), fun l e => (by cases e)⟩
          rw [hm] at this
          exact this
        · simp [Fine]
      · refine (W.call (op := .listMap _ _ _) trivial).bind fun p hp => ?_
        obtain ⟨a, w'⟩ := p
        obtain ⟨W', ha, hs, hm⟩ := hp
        dsimp only at ha hs hm W' ⊢
        split
        · rename_i n
          have hn : SlmIn (dom U w.strs) n := ha
          have := W'.pushMap (e := Emitted.new ⟨(slmToStringWithSourceMap n none).source,
            some (slmToStringWithSourceMap n none).map, none⟩ false)
            ⟨fun wm m a b => (by
              cases a; cases b; rw [hs]; exact slmToStringWithSourceMap_in hn (.inl rfl) none),
             fun wm g a b => (by cases a; cases b),
             fun l e => (by cases e), fun l e => (by cases e), fun l e => (by cases e)⟩
          rw [hm] at this
          exact this
        · simp [Fine]

theorem World.Within.newRaw {w : World} (W : w.Within U) (v : Str) :
    Fine (fun w' => w'.Within U) (w.newRaw v) := by
  simp only [World.newRaw]
  split
  · exact ⟨W.strs, W.heap, W.maps⟩
  · exact (W.create (op := .newRaw v) trivial _).map fun _ h => ⟨h.strs, h.heap, h.maps⟩

theorem World.Within.newOriginal {w : World} (W : w.Within U) {v n : Str}
    (hv : some v ∈ U .contents) (hn : some n ∈ U .sources) :
    Fine (fun w' => w'.Within U) (w.newOriginal v n) := by
  have h1 := W.internNew (some v)
  have h2 := h1.1.intern (some n)
  have ho : (Op.newOriginal v ((w.internNew (some v)).2.intern (some n)).1
      (w.internNew (some v)).1).In (dom U ((w.internNew (some v)).2.intern (some n)).2.strs) :=
    ⟨.inr (h2.2 _ (.inr hn)), (h1.2 _ hv).grow (World.intern_same _ _).strs⟩
  simp only [World.newOriginal]
  split
  · split
    · exact ⟨h2.1.strs, h2.1.heap, h2.1.maps⟩
    · exact (h2.1.create ho _).map fun _ h => ⟨h.strs, h.heap, h.maps⟩
  · exact h2.1.create ho _

theorem World.Within.newL2l {w : World} (W : w.Within U) {v n o : Str}
    (ho : some o ∈ U .contents) (hn : some n ∈ U .sources) :
    Fine (fun w' => w'.Within U) (w.newL2l v n o) := by
  have h1 := W.intern (some n)
  have h2 := h1.1.internNew (some o)
  exact h2.1.create (op := .newL2l v _ _)
    ⟨.inr ((h1.2 _ (.inr hn)).grow (World.internNew_same _ _).ext), h2.2 _ ho⟩ _

theorem World.Within.give {w : World} (W : w.Within U) {a : MapArg}
    (ha : ∀ f v, v ∈ a.supply f → v ∈ U f) :
    Fine (fun p => p.2.Within U ∧ p.1.In (dom U p.2.strs)) (w.give a) := by
  cases a with
  | plain ss cs ns m =>
    exact W.giveData m (fun v hv => .inr (ha .sources v hv)) (ha .contents) (ha .names)
  | emitted k =>
    simp only [World.give]
    split
    · simp [Fine]
    · rename_i e he
      have hw := W.maps e (List.mem_of_getElem? he)
      split
      · rename_i wm hwm
        have hwm : e.wasm = some wm := by
          split at hwm
          · cases hwm
          · exact hwm
        refine ⟨W.setMap ⟨fun _ _ h => (by cases h), fun _ _ h => (by cases h), hw.sources, hw.contents, hw.names⟩, fun d hd => ?_, ?_⟩
        · obtain ⟨m, hm, rfl⟩ := Option.map_eq_some_iff.1 hd
          have := hw.map wm m hwm hm
          exact ⟨this.sources, this.contents, this.names⟩
        · exact fun g hg => hw.gen wm g hwm hg
      · refine hw.getSources.bind fun a ha => ha.2.getContents.bind fun b hb =>
          hb.2.getMappings.bind fun c hc => hc.getNames.map fun d hd => ?_
        refine (W.setMap hd.2).giveData c.1 ha.1 (fun v hv => ?_) hd.1
        cases eb : b.1 with
        | none => rw [eb] at hv; cases hv
        | some l => rw [eb] at hv; exact hb.1 l eb v hv

theorem World.Within.giveInner {w : World} (W : w.Within U) {a : Option MapArg}
    (ha : ∀ f v, v ∈ supplyOpt a f → v ∈ U f) :
    Fine (fun p => p.2.Within U ∧ ∀ i, p.1 = some i → i.In (dom U p.2.strs)) (w.giveInner a) := by
  cases a with
  | none => exact ⟨W, fun i h => by cases h⟩
  | some a =>
    simp only [World.giveInner]
    exact (W.give ha).map fun p hp => ⟨hp.1, fun i h => by cases h; exact hp.2⟩

theorem Fine.with {α : Type} {P Q : α → Prop} {x : Except JErr α} (h : Fine P x)
    (hq : ∀ a, x = .ok a → Q a) : Fine (fun a => P a ∧ Q a) x := by
  cases x with
  | error e => exact h
  | ok a => exact ⟨h, hq a rfl⟩

theorem World.Within.newSms {w : World} (W : w.Within U) {v n : Str} {m : MapArg} {o : Option Str}
    {i : Option MapArg} (h : ∀ f x, x ∈ (JOp.newSms v n m o i).supply f → x ∈ U f) :
    Fine (fun w' => w'.Within U) (w.newSms v n m o i) := by
  have h1 := W.internNew (some v)
  have h2 := h1.1.intern (some n)
  have kv : Stands ((w.internNew (some v)).2.intern (some n)).2.strs (· ∈ U .contents)
      (w.internNew (some v)).1 :=
    (h1.2 _ (h .contents _ (List.mem_cons_self ..))).grow (World.intern_same _ _).strs
  have kn : Canon ((w.internNew (some v)).2.intern (some n)).2.strs U.Src
      ((w.internNew (some v)).2.intern (some n)).1 :=
    h2.2 _ (.inr (h .sources _ (List.mem_cons_self ..)))
  have hm : ∀ f x, x ∈ m.supply f → x ∈ U f := by
    intro f x hx
    cases f with
    | sources => exact h .sources x (List.mem_cons_of_mem _ (List.mem_append_left _ hx))
    | contents => exact h .contents x (List.mem_cons_of_mem _
        (List.mem_append_right _ (List.mem_append_left _ hx)))
    | names => exact h .names x (List.mem_append_left _ hx)
    | source | mappings => cases m <;> simp [MapArg.supply] at hx
  have hi : ∀ f x, x ∈ supplyOpt i f → x ∈ U f := by
    intro f x hx
    cases f with
    | sources => exact h .sources x (List.mem_cons_of_mem _ (List.mem_append_right _ hx))
    | contents => exact h .contents x (List.mem_cons_of_mem _
        (List.mem_append_right _ (List.mem_append_right _ hx)))
    | names => exact h .names x (List.mem_append_right _ hx)
    | source | mappings =>
      cases i with
      | none => simp [supplyOpt] at hx
      | some i => cases i <;> simp [supplyOpt, MapArg.supply] at hx
  have hor : ∀ s, truthy o = some s → some s ∈ U .contents := by
    intro s hs
    refine h .contents _ (List.mem_cons_of_mem _ (List.mem_append_left _ ?_))
    cases o with
    | none => cases hs
    | some t =>
      cases t with
      | nil => cases hs
      | cons c t => cases hs; simp
  simp only [World.newSms]
  refine ((h2.1.give hm).with (Q := fun p =>
    ((w.internNew (some v)).2.intern (some n)).2.strs.Ext p.2.strs)
    (fun p e => (World.give_same (h := p.1) (w' := p.2) e).ext)).bind fun p hp => ?_
  obtain ⟨hd, w1⟩ := p
  obtain ⟨⟨W1, hh⟩, g1⟩ := hp
  dsimp only at W1 hh g1 ⊢
  have kv := kv.grow g1.array
  have kn := kn.grow g1
  have rest : ∀ q : Option Int × World, (q.2.Within U ∧ OptIn (dom U q.2.strs).C q.1 ∧
      w1.strs.Ext q.2.strs) →
      Fine (fun w' => w'.Within U) ((q.2.giveInner i).bind fun i =>
        i.2.create (.newSms v (w.internNew (some v)).1
          ((w.internNew (some v)).2.intern (some n)).1 hd q.1 i.1) (.sms v (truthy o))) := by
    rintro q ⟨W2, ho, g2⟩
    have kv := kv.grow g2.array
    have kn := kn.grow g2
    have hh := hh.mono (dom_grow U g2)
    refine ((W2.giveInner hi).with (Q := fun p => q.2.strs.Ext p.2.strs)
      (fun p e => (World.giveInner_same (h := p.1) (w' := p.2) e).ext)).bind fun p hp => ?_
    obtain ⟨ih, w3⟩ := p
    obtain ⟨⟨W3, hi3⟩, g3⟩ := hp
    dsimp only at W3 hi3 g3 ⊢
    exact W3.create (op := .newSms v _ _ hd q.1 ih)
      ⟨kv.grow g3.array, .inr (kn.grow g3), hh.mono (dom_grow U g3),
        fun x hx => (dom_grow U g3).C _ (ho x hx), hi3⟩ _
  refine rest _ ?_
  split
  · rename_i s hs
    have := W1.internNew (some s)
    exact ⟨this.1, .some (this.2 _ (hor s hs)), (World.internNew_same w1 (some s)).ext⟩
  · exact ⟨W1, .none, .rfl' _⟩

theorem JOp.run_within {w : World} (W : w.Within U) {op : JOp}
    (h : ∀ f v, v ∈ op.supply f → v ∈ U f) : Fine (fun p => p.2.Within U) (op.run w) := by
  cases op with
  | newRaw v => exact (W.newRaw v).map fun _ h => h
  | newOriginal v n =>
    exact (W.newOriginal (h .contents _ (List.mem_singleton_self _))
      (h .sources _ (List.mem_singleton_self _))).map fun _ h => h
  | newL2l v n o =>
    exact (W.newL2l (h .contents _ (List.mem_singleton_self _))
      (h .sources _ (List.mem_singleton_self _))).map fun _ h => h
  | newSms v n m o i => exact (W.newSms h).map fun _ h => h
  | newPrefix p c =>
    exact (w.src_fine c).bind fun s _ => (W.create (op := .newPrefix p s) trivial _).map fun _ h => h
  | newReplace c =>
    exact (w.src_fine c).bind fun s _ => (W.create (op := .newReplace s) trivial _).map fun _ h => h
  | newConcat items =>
    simp only [JOp.run]
    exact (W.create (op := .newConcat) trivial _).bind fun w1 h =>
      (World.Within.addItems (j := w.objs.length) (is := items) h).map fun _ h => h
  | add j item => exact (W.addItem j item).map fun _ h => h
  | replace j a b t =>
    simp only [JOp.run]
    split
    · exact (W.call (op := .replace _ _ _ _ _ _) trivial).map fun _ h => h.1
    · simp [Fine]
  | insert j a t =>
    simp only [JOp.run]
    split
    · exact (W.call (op := .insert _ _ _ _) trivial).map fun _ h => h.1
    · simp [Fine]
  | source j => exact (W.readSource j).map fun _ h => h
  | size j => exact (W.readSize j).map fun _ h => h
  | sourceAndMap j c m => exact W.emit j c m
  | hash j => exact (World.Within.hashObj _ w j W).map fun _ h => h
  | get k f =>
    simp only [JOp.run]
    split
    · simp [Fine]
    · exact ((W.maps _ (List.mem_of_getElem? ‹_›)).get f).map fun p hp => W.setMap hp.2
  | set k a =>
    simp only [JOp.run]
    split
    · simp [Fine]
    · refine W.setMap ((W.maps _ (List.mem_of_getElem? ‹_›)).set fun k' v hv => ?_)
      refine h _ v ?_
      cases a <;> exact hv

theorem World.Within.runFrom : ∀ {ops : List JOp} {w : World}, w.Within U →
    (∀ op ∈ ops, ∀ f v, v ∈ op.supply f → v ∈ U f) → Fine (fun w' => w'.Within U) (w.runFrom ops)
  | [], _, W, _ => W
  | op :: _, _, W, h => (JOp.run_within W (h op (List.mem_cons_self ..))).bind fun _ hp =>
      World.Within.runFrom hp (fun op ho => h op (List.mem_cons_of_mem _ ho))

theorem World.empty_within : World.empty.Within U :=
  ⟨StrTable.empty_ok, fun i o e => (by simp [World.empty] at e), fun e he => by simp [World.empty] at he⟩

theorem World.run_within (ops : List JOp) :
    Fine (fun w => w.Within (supplied ops)) (World.run ops) :=
  World.Within.runFrom World.empty_within fun op ho _ _ hv => List.mem_flatMap.2 ⟨op, ho, hv⟩

end WS
